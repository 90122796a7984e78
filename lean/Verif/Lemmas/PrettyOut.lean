import Verif.Lemmas.Pretty

/-! Lemmas for C73: texts that are the markup of a reformatted list of nodes. -/
namespace JH
open Spec

theorem markupL_append' (U : Uni) (ctx : Option Str) (a b : List Node) : markupL U ctx (a ++ b) =
    match markupL U ctx a, markupL U ctx b with
    | some x, some y => some (x ++ y)
    | _, _ => none := by
  induction a with
  | nil => rw [List.nil_append, markupL]; cases markupL U ctx b <;> rfl
  | cons n a ih =>
    rw [List.cons_append, markupL, markupL, ih]
    cases markup U ctx n <;> cases markupL U ctx a <;> cases markupL U ctx b <;> simp

theorem markupL_append_some {U : Uni} {ctx : Option Str} {a b : List Node} {x y : Str} (ha : markupL U ctx a = some x)
    (hb : markupL U ctx b = some y) : markupL U ctx (a ++ b) = some (x ++ y) := by rw [markupL_append', ha, hb]

theorem readableL_append (U : Uni) (a b : List Node) : ReadableL U (a ++ b) ↔ ReadableL U a ∧ ReadableL U b := by
  induction a with
  | nil => simp [ReadableL]
  | cons n a ih => rw [List.cons_append, ReadableL, ReadableL, ih, and_assoc]

theorem reformatted_append {sp : Char → Bool} {a b c d : List Node} (h : Reformatted sp a b) (h' : Reformatted sp c d) :
    Reformatted sp (a ++ c) (b ++ d) := by
  induction h with
  | nil => exact h'
  | text ds t a b hw _ ih => rw [List.append_assoc]; exact .text ds t _ _ hw ih
  | comment t a b _ ih => exact .comment t _ _ ih
  | pi t a b _ ih => exact .pi t _ _ ih
  | doctype n p s a b _ ih => exact .doctype n p s _ _ ih
  | fragment kids ks a b hk _ _ ih => rw [List.append_assoc]; exact .fragment kids ks _ _ hk ih
  | keep n ns at' kids tpl content a b _ ih => exact .keep n ns at' kids tpl content _ _ ih
  | elem n ns at' kids kids' tpl content a b hn hk _ _ ih => exact .elem n ns at' kids kids' tpl content _ _ hn hk ih
  | template n ns at' kids content content' a b hn hc _ _ ih => exact .template n ns at' kids content content' _ _ hn hc ih

/-- `s` is the markup of a reformatted version of the siblings `K`. -/
def Out (U : Uni) (ctx : Option Str) (K : List Node) (s : Str) : Prop :=
  ∃ K', Reformatted U.isSpace K K' ∧ markupL U ctx K' = some s ∧ (ReadableL U K → ReadableL U K')

/-- Text is escaped. -/
def PlainCtx (U : Uni) (ctx : Option Str) : Prop := ∀ d, serializeTextFor U ctx d = escapeText d

variable {U : Uni} {ctx : Option Str}

theorem Out.append {A B : List Node} {s t : Str} (h : Out U ctx A s) (h' : Out U ctx B t) : Out U ctx (A ++ B) (s ++ t) := by
  obtain ⟨a, h1, h2, h3⟩ := h
  obtain ⟨b, g1, g2, g3⟩ := h'
  refine ⟨a ++ b, reformatted_append h1 g1, markupL_append_some h2 g2, fun hr => ?_⟩
  rw [readableL_append] at hr ⊢
  exact ⟨h3 hr.1, g3 hr.2⟩

theorem out_empty : Out U ctx [] [] := ⟨[], .nil, rfl, id⟩

theorem space_plain (U : Uni) (c : Char) (h : U.isSpace c = true) : esc1 c = [c] := by
  have hne : ∀ x ∈ c%"&<>", c ≠ x := by
    rintro x hx rfl
    have ha : isAscii c = true := by
      simp only [List.mem_cons, List.not_mem_nil, or_false] at hx
      rcases hx with rfl | rfl | rfl <;> decide
    rw [U.isSpace_ascii c ha] at h
    simp only [List.mem_cons, List.not_mem_nil, or_false] at hx
    rcases hx with rfl | rfl | rfl <;> exact absurd h (by decide)
  unfold esc1
  rw [if_neg (hne '&' (by decide)), if_neg (hne '<' (by decide)), if_neg (hne '>' (by decide))]

theorem escape_spaces (U : Uni) (w : Str) (h : ∀ c ∈ w, U.isSpace c = true) : escapeText w = w := by
  rw [escapeText_eq]
  induction w with
  | nil => rfl
  | cons c w ih => rw [List.flatMap_cons, space_plain U c (h c (by simp)), ih fun x hx => h x (by simp [hx])]; rfl

/-- A run of texts may be replaced by a text with the same words. -/
theorem out_texts (hp : PlainCtx U ctx) (ds : List Str) (d : Str) (hw : splitWs U.isSpace [] ds.flatten = splitWs U.isSpace [] d) :
    Out U ctx (ds.map Node.text) (escapeText d) := by
  refine ⟨[.text d], ?_, ?_, fun _ => ?_⟩
  · have := Reformatted.text (sp := U.isSpace) ds d [] [] hw .nil
    rwa [List.append_nil] at this
  · simp [markupL, markup, hp d]
  · simp [ReadableL, Readable]

theorem out_text (hp : PlainCtx U ctx) (d d' : Str) (hw : splitWs U.isSpace [] d = splitWs U.isSpace [] d') :
    Out U ctx [.text d] (escapeText d') := by
  have := out_texts hp [d] d' (by simpa using hw)
  simpa using this

theorem out_spaces (hp : PlainCtx U ctx) (w : Str) (h : ∀ c ∈ w, U.isSpace c = true) : Out U ctx [] w := by
  have := out_texts hp [] w (by rw [words_spaces w h]; rfl)
  rw [escape_spaces U w h] at this
  exact this

theorem out_blank (hp : PlainCtx U ctx) (d w : Str) (hd : ∀ c ∈ d, U.isSpace c = true) (h : ∀ c ∈ w, U.isSpace c = true) :
    Out U ctx [.text d] w := by
  have := out_text hp d w (by rw [words_spaces w h, words_spaces d hd])
  rw [escape_spaces U w h] at this
  exact this

theorem out_pre (hp : PlainCtx U ctx) {A : List Node} {s : Str} (w : Str) (h : ∀ c ∈ w, U.isSpace c = true) (hs : Out U ctx A s) :
    Out U ctx A (w ++ s) := by
  have := (out_spaces hp w h).append hs
  simpa using this

theorem out_post (hp : PlainCtx U ctx) {A : List Node} {s : Str} (w : Str) (h : ∀ c ∈ w, U.isSpace c = true) (hs : Out U ctx A s) :
    Out U ctx A (s ++ w) := by
  have := hs.append (out_spaces hp w h)
  simpa using this

theorem indent_spaces (U : Uni) (a b : Nat) : ∀ c ∈ prettyIndent a b, U.isSpace c = true := by
  intro c hc
  rw [prettyIndent, List.mem_replicate] at hc
  rw [hc.2]; exact sp_blank U

/-! ### Stripping blanks -/

/-- Begins with `<` and ends with `>`. -/
def Bracketed (s : Str) : Prop := ∃ m, s = '<' :: (m ++ ['>'])

theorem startTag_bracketed (o : TagOpts) (name : Str) (attrs : List (Str × Option Str)) (t : Str)
    (ho : (o.trailingSolidus && o.isVoid) = false) (h : serializeStartTag U o name attrs = some t) : Bracketed t := by
  unfold serializeStartTag at h
  split at h
  · cases h
  · split at h
    · cases h
    · rw [ho] at h
      simp only [Option.some.injEq] at h
      exact ⟨_, h.symm⟩

theorem bracketed_ends (a b : Str) (h : Bracketed a) : Bracketed (a ++ (b ++ ['>'])) := by
  obtain ⟨m, rfl⟩ := h
  exact ⟨m ++ ['>'] ++ b, by simp⟩

theorem markup_bracketed (n : Node) (hn : isTextN n = false) (hd : ∀ k, n ≠ .doc k) (s : Str) (h : markup U ctx n = some s) : Bracketed s := by
  cases n with
  | text d => simp [isTextN] at hn
  | doc k => exact absurd rfl (hd k)
  | comment d =>
    simp only [markup, Option.some.injEq] at h
    exact ⟨c%"!--" ++ serializeComment d ++ c%"--", by rw [← h]; simp⟩
  | pi d =>
    simp only [markup, Option.some.injEq] at h
    exact ⟨c%"?" ++ serializePi d ++ c%"?", by rw [← h]; simp⟩
  | doctype name pub sys =>
    simp only [markup, Option.some.injEq] at h
    refine ⟨c%"!DOCTYPE" ++ ((if (safeDoctypeName name).isEmpty then [] else ' ' :: safeDoctypeName name) ++ doctypeIds pub sys), ?_⟩
    rw [← h, serializeDoctype]; simp
  | elem name ns attrs kids tpl content =>
    rw [markup] at h
    split at h
    · cases h
    · rename_i tag htag
      have hb := startTag_bracketed _ _ _ _ rfl htag
      split at h
      · simp only [Option.some.injEq] at h; rw [← h]; exact hb
      · split at h
        · obtain ⟨inner, _, rfl⟩ := Option.map_eq_some_iff.1 h
          have := bracketed_ends tag (inner ++ c%"</" ++ name) hb
          simpa using this
        · obtain ⟨inner, _, rfl⟩ := Option.map_eq_some_iff.1 h
          have := bracketed_ends tag (inner ++ c%"</" ++ name) hb
          simpa using this

theorem lstrip_bracketed (s r : Str) (h : Bracketed s) : lstripP (· = ' ') (s ++ r) = s ++ r := by
  obtain ⟨m, rfl⟩ := h
  rw [lstripP, List.cons_append, List.dropWhile_cons_of_neg (by decide)]

theorem rstrip_append (p : Char → Bool) (a b : Str) : rstripP p (a ++ b) = if rstripP p b = [] then rstripP p a else a ++ rstripP p b := by
  rw [rstripP, rstripP, rstripP, List.reverse_append, List.dropWhile_append]
  split
  · rename_i h
    rw [if_pos (by simpa using h)]
  · rename_i h
    rw [if_neg (by simpa using h)]
    simp

theorem rstrip_bracketed (s : Str) (h : Bracketed s) : rstripP (· = ' ') s = s := by
  obtain ⟨m, rfl⟩ := h
  rw [rstripP]
  simp

theorem lstrip_append (p : Char → Bool) (a b : Str) : lstripP p (a ++ b) = if lstripP p a = [] then lstripP p b else lstripP p a ++ b := by
  rw [lstripP, lstripP, lstripP, List.dropWhile_append]
  split
  · rename_i h; rw [if_pos (by simpa using h)]
  · rename_i h; rw [if_neg (by simpa using h)]

theorem esc1_space : ∀ c : Char, (esc1 c).dropWhile (· = ' ') = if c = ' ' then [] else esc1 c := by
  intro c
  unfold esc1
  by_cases h1 : c = '&'
  · subst h1; decide
  · by_cases h2 : c = '<'
    · subst h2; decide
    · by_cases h3 : c = '>'
      · subst h3; decide
      · by_cases h4 : c = ' '
        · subst h4; decide
        · simp [h1, h2, h3, h4]

theorem lstrip_escape (d : Str) : lstripP (· = ' ') (escapeText d) = escapeText (lstripP (· = ' ') d) := by
  rw [escapeText_eq, escapeText_eq]
  induction d with
  | nil => rfl
  | cons c d ih =>
    rw [List.flatMap_cons, lstrip_append]
    have := esc1_space c
    rw [lstripP] at ih ⊢
    rw [this]
    by_cases hc : c = ' '
    · rw [if_pos hc, if_pos rfl]
      rw [lstripP, ih, lstripP, lstripP, List.dropWhile_cons_of_pos (by simpa using hc)]
    · have hne : esc1 c ≠ [] := by
        unfold esc1
        split
        · simp
        · split
          · simp
          · split <;> simp
      rw [if_neg hc, if_neg hne, lstripP, List.dropWhile_cons_of_neg (by simpa using hc), List.flatMap_cons]

theorem esc1_rspace : ∀ c : Char, rstripP (· = ' ') (esc1 c) = if c = ' ' then [] else esc1 c := by
  intro c
  unfold esc1
  by_cases h1 : c = '&'
  · subst h1; decide
  · by_cases h2 : c = '<'
    · subst h2; decide
    · by_cases h3 : c = '>'
      · subst h3; decide
      · by_cases h4 : c = ' '
        · subst h4; decide
        · simp [h1, h2, h3, h4, rstripP]

theorem esc1_ne (c : Char) : esc1 c ≠ [] := by
  unfold esc1
  split
  · simp
  · split
    · simp
    · split <;> simp

theorem rstrip_escape (d : Str) : rstripP (· = ' ') (escapeText d) = escapeText (rstripP (· = ' ') d) := by
  rw [escapeText_eq, escapeText_eq]
  induction d with
  | nil => rfl
  | cons c d ih =>
    rw [List.flatMap_cons, rstrip_append, ih, esc1_rspace]
    have e := rstrip_append (· = ' ') [c] d
    rw [List.singleton_append] at e
    rw [e]
    by_cases h : rstripP (· = ' ') d = []
    · rw [if_pos (by rw [h]; rfl), if_pos h]
      by_cases hc : c = ' '
      · rw [if_pos hc]; subst hc; rfl
      · rw [if_neg hc]
        have : rstripP (· = ' ') [c] = [c] := by simp [rstripP, hc]
        rw [this]; simp
    · have hne : (rstripP (· = ' ') d).flatMap esc1 ≠ [] := by
        cases hx : rstripP (· = ' ') d with
        | nil => exact absurd hx h
        | cons x xs => rw [List.flatMap_cons]; simp [esc1_ne x]
      rw [if_neg hne, if_neg h]; simp

/-- Strings made of blanks disappear. -/
theorem blank_words (U : Uni) (d : Str) (h : lstripP (· = ' ') d = []) : ∀ c ∈ d, U.isSpace c = true := by
  obtain ⟨w, h1, h2⟩ := lstripP_split (· = ' ') d
  rw [h, List.append_nil] at h1
  intro c hc
  rw [h1] at hc
  have := h2 c hc
  simp only [decide_eq_true_eq] at this
  rw [this]; exact sp_blank U

theorem words_lstrip (U : Uni) (d : Str) : splitWs U.isSpace [] (lstripP (· = ' ') d) = splitWs U.isSpace [] d := by
  obtain ⟨w, h1, h2⟩ := lstripP_split (· = ' ') d
  have := words_lead (sp := U.isSpace) w (lstripP (· = ' ') d) fun c hc => by
    have := h2 c hc
    simp only [decide_eq_true_eq] at this
    rw [this]; exact sp_blank U
  rw [← h1] at this
  exact this.symm

theorem words_rstrip (U : Uni) (d : Str) : splitWs U.isSpace [] (rstripP (· = ' ') d) = splitWs U.isSpace [] d := by
  obtain ⟨w, h1, h2⟩ := rstripP_split (· = ' ') d
  have := words_trail (sp := U.isSpace) (rstripP (· = ' ') d) w [] fun c hc => by
    have := h2 c hc
    simp only [decide_eq_true_eq] at this
    rw [this]; exact sp_blank U
  rw [← h1] at this
  exact this.symm

theorem markupL_cons_some {n : Node} {b : List Node} {m : Str} (h : markupL U ctx (n :: b) = some m) :
    ∃ x y, markup U ctx n = some x ∧ markupL U ctx b = some y ∧ m = x ++ y := by
  rw [markupL] at h
  split at h
  · rename_i x y hx hy
    simp only [Option.some.injEq] at h
    exact ⟨x, y, hx, hy, h.symm⟩
  · cases h

theorem markupL_append_inv {a b : List Node} {m : Str} (h : markupL U ctx (a ++ b) = some m) :
    ∃ x y, markupL U ctx a = some x ∧ markupL U ctx b = some y ∧ m = x ++ y := by
  rw [markupL_append'] at h
  split at h
  · rename_i x y hx hy
    simp only [Option.some.injEq] at h
    exact ⟨x, y, hx, hy, h.symm⟩
  · cases h

theorem markupL_cons_of {n : Node} {b : List Node} {x y : Str} (h1 : markup U ctx n = some x) (h2 : markupL U ctx b = some y) :
    markupL U ctx (n :: b) = some (x ++ y) := by rw [markupL, h1, h2]

/-- Leading blanks of the markup are blanks of texts. -/
theorem lstrip_reformatted (hp : PlainCtx U ctx) {A K : List Node} (h : Reformatted U.isSpace A K) : ∀ m, markupL U ctx K = some m →
    ∃ K', Reformatted U.isSpace A K' ∧ markupL U ctx K' = some (lstripP (· = ' ') m) ∧ (ReadableL U K → ReadableL U K') := by
  have bracket : ∀ (a b : List Node) (n n' : Node) (m : Str), Reformatted U.isSpace (n' :: a) (n :: b) → isTextN n = false → (∀ k, n ≠ .doc k) →
      markupL U ctx (n :: b) = some m → ∃ K', Reformatted U.isSpace (n' :: a) K' ∧ markupL U ctx K' = some (lstripP (· = ' ') m) ∧
        (ReadableL U (n :: b) → ReadableL U K') := by
    intro a b n n' m hr ht hd hm
    obtain ⟨x, y, h1, h2, rfl⟩ := markupL_cons_some hm
    exact ⟨n :: b, hr, by rw [lstrip_bracketed _ _ (markup_bracketed n ht hd x h1)]; exact hm, id⟩
  induction h with
  | nil => intro m hm; simp only [markupL, Option.some.injEq] at hm; subst hm; exact ⟨[], .nil, rfl, id⟩
  | text ds d a b hw h ih =>
    intro m hm
    obtain ⟨x, y, h1, h2, rfl⟩ := markupL_cons_some hm
    simp only [markup, hp d, Option.some.injEq] at h1
    subst h1
    rw [lstrip_append, lstrip_escape]
    by_cases hb : lstripP (· = ' ') d = []
    · rw [if_pos (by rw [hb]; rfl)]
      obtain ⟨K', g1, g2, g3⟩ := ih y h2
      refine ⟨.text [] :: K', .text ds [] a K' ?_ g1, ?_, fun hr => ?_⟩
      · rw [hw, wordsOf, words_spaces d (blank_words U d hb)]; rfl
      · rw [markupL_cons_of (n := .text []) (x := []) (by rw [markup, hp, escapeText_eq]; rfl) g2]; rfl
      · rw [ReadableL] at hr ⊢; exact ⟨by simp [Readable], g3 hr.2⟩
    · have hne : escapeText (lstripP (· = ' ') d) ≠ [] := by
        rw [escapeText_eq]
        cases hx : lstripP (· = ' ') d with
        | nil => exact absurd hx hb
        | cons z zs => rw [List.flatMap_cons]; simp [esc1_ne z]
      rw [if_neg hne]
      refine ⟨.text (lstripP (· = ' ') d) :: b, .text ds _ a b ?_ h, ?_, fun hr => ?_⟩
      · rw [hw]; exact (words_lstrip U d).symm
      · exact markupL_cons_of (by rw [markup, hp]) h2
      · rw [ReadableL] at hr ⊢; exact ⟨by simp [Readable], hr.2⟩
  | comment t a b h ih => intro m hm; exact bracket _ _ _ _ m (.comment t _ _ h) rfl (by simp) hm
  | pi t a b h ih => intro m hm; exact bracket _ _ _ _ m (.pi t _ _ h) rfl (by simp) hm
  | doctype n p s a b h ih => intro m hm; exact bracket _ _ _ _ m (.doctype n p s _ _ h) rfl (by simp) hm
  | fragment kids ks a b hk h ihk ih =>
    intro m hm
    obtain ⟨x, y, h1, h2, rfl⟩ := markupL_append_inv hm
    obtain ⟨K1, g1, g2, g3⟩ := ihk x h1
    rw [lstrip_append]
    split
    · rename_i hb
      obtain ⟨K2, f1, f2, f3⟩ := ih y h2
      refine ⟨K1 ++ K2, .fragment kids K1 a K2 g1 f1, ?_, fun hr => ?_⟩
      · rw [hb] at g2
        have := markupL_append_some g2 f2
        simpa using this
      · rw [readableL_append] at hr ⊢; exact ⟨g3 hr.1, f3 hr.2⟩
    · refine ⟨K1 ++ b, .fragment kids K1 a b g1 h, markupL_append_some g2 h2, fun hr => ?_⟩
      rw [readableL_append] at hr ⊢; exact ⟨g3 hr.1, hr.2⟩
  | keep n ns at' kids tpl content a b h ih => intro m hm; exact bracket _ _ _ _ m (.keep n ns at' kids tpl content _ _ h) rfl (by simp) hm
  | elem n ns at' kids kids' tpl content a b hn hk h _ ih =>
    intro m hm; exact bracket _ _ _ _ m (.elem n ns at' kids kids' tpl content _ _ hn hk h) rfl (by simp) hm
  | template n ns at' kids content content' a b hn hc h _ ih =>
    intro m hm; exact bracket _ _ _ _ m (.template n ns at' kids content content' _ _ hn hc h) rfl (by simp) hm

/-- Trailing blanks of the markup are blanks of texts. -/
theorem rstrip_reformatted (hp : PlainCtx U ctx) {A K : List Node} (h : Reformatted U.isSpace A K) : ∀ m, markupL U ctx K = some m →
    ∃ K', Reformatted U.isSpace A K' ∧ markupL U ctx K' = some (rstripP (· = ' ') m) ∧ (ReadableL U K → ReadableL U K') := by
  have bracket : ∀ (a b : List Node) (n n' : Node) (m : Str), (∀ c, Reformatted U.isSpace a c → Reformatted U.isSpace (n' :: a) (n :: c)) →
      isTextN n = false → (∀ k, n ≠ .doc k) → (∀ m, markupL U ctx b = some m →
        ∃ K', Reformatted U.isSpace a K' ∧ markupL U ctx K' = some (rstripP (· = ' ') m) ∧ (ReadableL U b → ReadableL U K')) →
      markupL U ctx (n :: b) = some m → ∃ K', Reformatted U.isSpace (n' :: a) K' ∧ markupL U ctx K' = some (rstripP (· = ' ') m) ∧
        (ReadableL U (n :: b) → ReadableL U K') := by
    intro a b n n' m hr ht hd ih hm
    obtain ⟨x, y, h1, h2, rfl⟩ := markupL_cons_some hm
    obtain ⟨K', g1, g2, g3⟩ := ih y h2
    refine ⟨n :: K', hr K' g1, ?_, fun h => ?_⟩
    · rw [markupL_cons_of h1 g2, rstrip_append]
      split
      · rename_i hb; rw [hb, rstrip_bracketed _ (markup_bracketed n ht hd x h1), List.append_nil]
      · rfl
    · rw [ReadableL] at h ⊢; exact ⟨h.1, g3 h.2⟩
  induction h with
  | nil => intro m hm; simp only [markupL, Option.some.injEq] at hm; subst hm; exact ⟨[], .nil, rfl, id⟩
  | text ds d a b hw h ih =>
    intro m hm
    obtain ⟨x, y, h1, h2, rfl⟩ := markupL_cons_some hm
    simp only [markup, hp d, Option.some.injEq] at h1
    subst h1
    obtain ⟨K', g1, g2, g3⟩ := ih y h2
    rw [rstrip_append]
    split
    · rename_i hb
      rw [hb] at g2
      refine ⟨.text (rstripP (· = ' ') d) :: K', .text ds _ a K' ?_ g1, ?_, fun hr => ?_⟩
      · rw [hw]; exact (words_rstrip U d).symm
      · rw [markupL_cons_of (n := .text (rstripP (· = ' ') d)) (x := escapeText (rstripP (· = ' ') d)) (by rw [markup, hp]) g2,
          List.append_nil, rstrip_escape]
      · rw [ReadableL] at hr ⊢; exact ⟨by simp [Readable], g3 hr.2⟩
    · refine ⟨.text d :: K', .text ds d a K' hw g1, markupL_cons_of (by rw [markup, hp]) g2, fun hr => ?_⟩
      rw [ReadableL] at hr ⊢; exact ⟨by simp [Readable], g3 hr.2⟩
  | comment t a b h ih => intro m hm; exact bracket _ _ _ _ m (fun c => .comment t _ _) rfl (by simp) ih hm
  | pi t a b h ih => intro m hm; exact bracket _ _ _ _ m (fun c => .pi t _ _) rfl (by simp) ih hm
  | doctype n p s a b h ih => intro m hm; exact bracket _ _ _ _ m (fun c => .doctype n p s _ _) rfl (by simp) ih hm
  | fragment kids ks a b hk h ihk ih =>
    intro m hm
    obtain ⟨x, y, h1, h2, rfl⟩ := markupL_append_inv hm
    obtain ⟨K2, f1, f2, f3⟩ := ih y h2
    rw [rstrip_append]
    split
    · rename_i hb
      obtain ⟨K1, g1, g2, g3⟩ := ihk x h1
      refine ⟨K1 ++ K2, .fragment kids K1 a K2 g1 f1, ?_, fun hr => ?_⟩
      · rw [hb] at f2
        have := markupL_append_some g2 f2
        simpa using this
      · rw [readableL_append] at hr ⊢; exact ⟨g3 hr.1, f3 hr.2⟩
    · refine ⟨ks ++ K2, .fragment kids ks a K2 hk f1, markupL_append_some h1 f2, fun hr => ?_⟩
      rw [readableL_append] at hr ⊢; exact ⟨hr.1, f3 hr.2⟩
  | keep n ns at' kids tpl content a b h ih =>
    intro m hm; exact bracket _ _ _ _ m (fun c => .keep n ns at' kids tpl content _ _) rfl (by simp) ih hm
  | elem n ns at' kids kids' tpl content a b hn hk h _ ih =>
    intro m hm; exact bracket _ _ _ _ m (fun c => .elem n ns at' kids kids' tpl content _ _ hn hk) rfl (by simp) ih hm
  | template n ns at' kids content content' a b hn hc h _ ih =>
    intro m hm; exact bracket _ _ _ _ m (fun c => .template n ns at' kids content content' _ _ hn hc) rfl (by simp) ih hm

theorem out_strip (hp : PlainCtx U ctx) {A : List Node} {s : Str} (h : Out U ctx A s) : Out U ctx A (stripP (· = ' ') s) := by
  obtain ⟨K, h1, h2, h3⟩ := h
  obtain ⟨K1, g1, g2, g3⟩ := lstrip_reformatted hp h1 s h2
  obtain ⟨K2, f1, f2, f3⟩ := rstrip_reformatted hp g1 _ g2
  exact ⟨K2, f1, f2, fun hr => f3 (g3 (h3 hr))⟩

end JH
