import Verif.Lemmas.SelTok
/-! The parser on texts that spell selectors. -/
namespace JH
open Spec

variable {U : Uni} {lim : SelLimits} {inner : Str → Sel → Prop} {sub : SubParser}

def NoParen (l : List STok) : Prop := ∀ r, l ≠ .parenOpen :: r

/-- The nested selector in `x` is parsed as it should. -/
def SubGood (inner : Str → Sel → Prop) (sub : SubParser) (x : Simple) : Prop :=
  ∀ s i, inner s i → (∃ n a, x = .pseudo n a i) → ∀ next, ∃ i' next', sub s next = some (i', next') ∧ eraseSel i' = i

/-- What the proof needs to know about the text of a simple selector. -/
structure SimpleTok (U : Uni) (inner : Str → Sel → Prop) (t : Str) (x : Simple) (ts : List STok) : Prop where
  ne : ts ≠ []
  paren : NoParen ts
  head : ∃ c cs, t = c :: cs ∧ isHtmlSpace c = false ∧ combOf c = none ∧ c ≠ ',' ∧ U.isSpace c = false ∧ ((∀ n, x ≠ .tag n) → isNameChar U c = false ∧ c ≠ '(') ∧
    ∀ r, Boundary U r → tokMain U c (cs ++ r) = some (ts, r)
  last : ∀ c, t.getLast? = some c → U.isSpace c = false
  parse : ∀ sub, SubGood inner sub x → ∀ next, ∃ x' next', eraseSimple x' = x ∧ ∀ rest, NoParen rest → parseSimple U sub next (ts ++ rest) = .got x' next' rest

theorem ident_last {t : Str} (h : Ident U t) : ∀ c, t.getLast? = some c → U.isSpace c = false :=
  fun c hc => (h.2 c (List.mem_of_getLast? hc)).2

theorem cons_last {a : Char} {t : Str} (h : Ident U t) : ∀ c, (a :: t).getLast? = some c → U.isSpace c = false := by
  intro c hc
  cases t with
  | nil => exact absurd rfl h.1
  | cons d t => rw [List.getLast?_cons_cons] at hc; exact ident_last h c hc

theorem last_snoc {l : Str} {a : Char} (h : U.isSpace a = false) : ∀ c, (l ++ [a]).getLast? = some c → U.isSpace c = false := by
  intro c hc
  rw [List.getLast?_concat] at hc
  cases hc; exact h

theorem ascii_plain {c : Char} (h : isAscii c = true) (h2 : (decide (c = ' ') || (decide (9 ≤ c.toNat) && decide (c.toNat ≤ 13)) || (decide (28 ≤ c.toNat) && decide (c.toNat ≤ 31))) = false)
    : U.isSpace c = false := by rw [U.isSpace_ascii c h, h2]

theorem ascii_noname {c : Char} (h : isAscii c = true) (h2 : (isAsciiAlpha c || isDigitC c || c = '_' || c = '-') = false) : isNameChar U c = false := by
  rw [ascii_name h, h2]

theorem tokAttr_has {t a b r : Str} (ht : Ident U t) (ha : Blank a) (hb : Blank b) :
    tokAttr U (a ++ (t ++ (b ++ ']' :: r))) = some ([.attrStart, .tag t, .attrEnd], r) := by
  have h1 : skipWs (a ++ (t ++ (b ++ ']' :: r))) = t ++ (b ++ ']' :: r) := by
    apply skipWs_blank ha
    intro c hc
    cases t with
    | nil => exact absurd rfl ht.1
    | cons d t =>
      cases hc
      rcases e : isHtmlSpace _ with _ | _
      · rfl
      · have := (ht.2 _ List.mem_cons_self).2
        rw [(space_ascii e).2.1] at this; cases this
  have h2 : readName U (t ++ (b ++ ']' :: r)) = (t, b ++ ']' :: r) := by
    apply readName_append ht
    intro c hc
    obtain ⟨d, r', e, h⟩ := blank_head hb (r := ']' :: r) rfl
    rw [e] at hc
    cases hc
    rcases h with h | rfl
    · exact (space_ascii h).2.2
    · exact ascii_noname (by decide) (by decide)
  have h3 : skipWs (b ++ ']' :: r) = ']' :: r := skipWs_blank hb (by intro c hc; cases hc; decide)
  rw [tokAttr]
  simp only [h1, h2, h3]
  rw [if_neg ht.1]; rfl

theorem tokAttr_op {t a b op x v w y r : Str} (ht : Ident U t) (ho : op ∈ [c%"=", c%"~=", c%"|=", c%"^=", c%"$=", c%"*="]) (hv : ValueText v w)
    (ha : Blank a) (hb : Blank b) (hx : Blank x) (hy : Blank y) :
    tokAttr U (a ++ (t ++ (b ++ (op ++ (x ++ (v ++ (y ++ ']' :: r))))))) = some ([.attrStart, .tag t, .attrOp op, .string w, .attrEnd], r) := by
  have hop : ∃ c cs, op = c :: cs ∧ isHtmlSpace c = false ∧ isNameChar U c = false := by
    simp only [List.mem_cons, List.not_mem_nil, or_false] at ho
    rcases ho with rfl | rfl | rfl | rfl | rfl | rfl <;> exact ⟨_, _, rfl, by decide, ascii_noname (by decide) (by decide)⟩
  have h1 : ∀ z, skipWs (a ++ (t ++ z)) = t ++ z := by
    intro z
    apply skipWs_blank ha
    intro c hc
    cases t with
    | nil => exact absurd rfl ht.1
    | cons d t =>
      cases hc
      rcases e : isHtmlSpace _ with _ | _
      · rfl
      · have := (ht.2 _ List.mem_cons_self).2
        rw [(space_ascii e).2.1] at this; cases this
  have h2 : ∀ z, readName U (t ++ (b ++ (op ++ z))) = (t, b ++ (op ++ z)) := by
    intro z
    apply readName_append ht
    intro c hc
    obtain ⟨o, os, rfl, _, ho2⟩ := hop
    obtain ⟨d, r', e, h⟩ := blank_head hb (r := o :: os ++ z) (x := o) rfl
    rw [e] at hc
    cases hc
    rcases h with h | rfl
    · exact (space_ascii h).2.2
    · exact ho2
  have h3 : ∀ z, skipWs (b ++ (op ++ z)) = op ++ z := by
    intro z
    obtain ⟨o, os, rfl, ho1, _⟩ := hop
    exact skipWs_blank hb (by intro c hc; cases hc; exact ho1)
  rw [tokAttr]
  simp only [h1, h2, h3]
  rw [if_neg ht.1]
  simp only [List.mem_cons, List.not_mem_nil, or_false] at ho
  rcases ho with rfl | rfl | rfl | rfl | rfl | rfl <;>
    (dsimp only [List.cons_append, List.nil_append]; simp only [reduceIte, Char.reduceEq, List.mem_cons, List.not_mem_nil, or_false, or_true, true_or, false_or]; exact tokAttrValue_text hv hx hy)

theorem tokPseudo_fn {s n r r' x : Str} (h : readName U s = (n, '(' :: r)) (hn : n ≠ []) (ha : readArg 1 (skipWs r) = (x, ')' :: r')) :
    tokPseudo U s = some ([.colon, .tag n, .parenOpen] ++ (if stripP U.isSpace x = [] then [] else [.string (stripP U.isSpace x)]) ++ [.parenClose], r') := by
  unfold tokPseudo
  simp [h, hn, ha]

theorem simple_tok {t : Str} {x : Simple} (h : SimpleText U inner t x) : ∃ ts, SimpleTok U inner t x ts := by
  cases h with
  | tag ht =>
    obtain ⟨hi, hh⟩ := ht
    have hl := ident_last hi
    cases t with
    | nil => exact absurd rfl hi.1
    | cons c cs =>
      have hs : isNameStart U c = true := by
        simp only [isNameStart, Bool.or_eq_true, decide_eq_true_eq]
        rcases hh c rfl with h | h | h | h
        · exact .inl (.inl (.inl h))
        · exact .inl (.inl (.inr h))
        · exact .inl (.inr h)
        · exact .inr h
      obtain ⟨p1, p2, p3, p4, p5, p6, p7, p8⟩ := nameStart_plain hs
      refine ⟨[.tag (U.lower (c :: cs))], nofun, (by intro r hr; cases hr), ⟨c, cs, rfl, p1, p2, p7, (hi.2 c (by simp)).2, ?_, ?_⟩, hl, ?_⟩
      · intro hx; exact absurd rfl (hx _)
      · intro r hr
        rw [tokMain, if_neg p3, if_neg p4, if_neg p5, if_neg p6, if_neg p7, if_neg p8, if_pos hs]
        have := readName_append hi hr.name
        rw [List.cons_append] at this
        rw [this]
      · intro sub _ next
        exact ⟨.tag _, next, rfl, fun _ _ => rfl⟩
  | universal =>
    refine ⟨[.universal], nofun, (by intro r hr; cases hr), ⟨'*', [], rfl, by decide, by decide, by decide, ascii_plain (by decide) (by decide), fun _ => ⟨ascii_noname (by decide) (by decide), by decide⟩, ?_⟩, ?_, ?_⟩
    · intro r _; rfl
    · exact last_snoc (l := []) (ascii_plain (by decide) (by decide))
    · intro sub _ next; exact ⟨.universal, next, rfl, fun _ _ => rfl⟩
  | @id t hi =>
    refine ⟨[.id t], nofun, (by intro r hr; cases hr), ⟨'#', t, rfl, by decide, by decide, by decide, ascii_plain (by decide) (by decide), fun _ => ⟨ascii_noname (by decide) (by decide), by decide⟩, ?_⟩, cons_last hi, ?_⟩
    · intro r hr
      rw [tokMain, if_neg (by decide), if_pos rfl, readName_append hi hr.name]
      dsimp only
      rw [if_neg hi.1]
    · intro sub _ next; exact ⟨.id t, next, rfl, fun _ _ => rfl⟩
  | @cls t hi =>
    refine ⟨[.cls t], nofun, (by intro r hr; cases hr), ⟨'.', t, rfl, by decide, by decide, by decide, ascii_plain (by decide) (by decide), fun _ => ⟨ascii_noname (by decide) (by decide), by decide⟩, ?_⟩, cons_last hi, ?_⟩
    · intro r hr
      rw [tokMain, if_neg (by decide), if_neg (by decide), if_pos rfl, readName_append hi hr.name]
      dsimp only
      rw [if_neg hi.1]
    · intro sub _ next; exact ⟨.cls t, next, rfl, fun _ _ => rfl⟩
  | @hasAttr t a b hi ha hb =>
    refine ⟨[.attrStart, .tag t, .attrEnd], nofun, (by intro r hr; cases hr), ⟨'[', _, rfl, by decide, by decide, by decide, ascii_plain (by decide) (by decide), fun _ => ⟨ascii_noname (by decide) (by decide), by decide⟩, ?_⟩, ?_, ?_⟩
    · intro r hr
      rw [tokMain, if_neg (by decide), if_neg (by decide), if_neg (by decide), if_pos rfl]
      rw [show a ++ t ++ b ++ [']'] ++ r = a ++ (t ++ (b ++ ']' :: r)) by simp]
      exact tokAttr_has hi ha hb
    · rw [← List.cons_append]; exact last_snoc (ascii_plain (by decide) (by decide))
    · intro sub _ next; exact ⟨.attr (U.lower t) none, next, rfl, fun _ _ => rfl⟩
  | @attr t op v w a b x y hi ho hv ha hb hx hy =>
    refine ⟨[.attrStart, .tag t, .attrOp op, .string w, .attrEnd], nofun, (by intro r hr; cases hr), ⟨'[', _, rfl, by decide, by decide, by decide, ascii_plain (by decide) (by decide), fun _ => ⟨ascii_noname (by decide) (by decide), by decide⟩, ?_⟩, ?_, ?_⟩
    · intro r hr
      rw [tokMain, if_neg (by decide), if_neg (by decide), if_neg (by decide), if_pos rfl]
      rw [show a ++ t ++ b ++ op ++ x ++ v ++ y ++ [']'] ++ r = a ++ (t ++ (b ++ (op ++ (x ++ (v ++ (y ++ ']' :: r)))))) by simp]
      exact tokAttr_op hi ho hv ha hb hx hy
    · rw [← List.cons_append]; exact last_snoc (ascii_plain (by decide) (by decide))
    · intro sub _ next; exact ⟨.attr (U.lower t) (some (op, w)), next, rfl, fun _ _ => rfl⟩
  | @pseudo t hi =>
    refine ⟨[.colon, .tag t], nofun, (by intro r hr; cases hr), ⟨':', t, rfl, by decide, by decide, by decide, ascii_plain (by decide) (by decide), fun _ => ⟨ascii_noname (by decide) (by decide), by decide⟩, ?_⟩, cons_last hi, ?_⟩
    · intro r hr
      rw [tokMain, if_neg (by decide), if_neg (by decide), if_neg (by decide), if_neg (by decide), if_neg (by decide), if_pos rfl, tokPseudo,
        readName_append hi hr.name]
      dsimp only
      rw [if_neg hi.1]
      split
      · rename_i r'
        exact absurd rfl (hr '(' rfl).2
      · rfl
    · intro sub _ next
      refine ⟨.pseudo (U.lower t) none [], next, by rw [eraseSimple, eraseSel], ?_⟩
      intro rest hr
      show parsePseudo U sub next (.tag t :: rest) = _
      rw [parsePseudo.eq_def]
      split
      · rename_i e; cases e; exact absurd rfl (hr _)
      · rename_i e; cases e; exact absurd rfl (hr _)
      · rename_i e; cases e; exact absurd rfl (hr _)
      · rename_i e; cases e; rfl
      · rename_i h; exact absurd rfl (h _ _)
  | @noArg t a hi ha =>
    refine ⟨[.colon, .tag t, .parenOpen, .parenClose], nofun, (by intro r hr; cases hr), ⟨':', _, rfl, by decide, by decide, by decide, ascii_plain (by decide) (by decide), fun _ => ⟨ascii_noname (by decide) (by decide), by decide⟩, ?_⟩, ?_, ?_⟩
    · intro r hr
      rw [tokMain, if_neg (by decide), if_neg (by decide), if_neg (by decide), if_neg (by decide), if_neg (by decide), if_pos rfl]
      rw [show t ++ '(' :: a ++ [')'] ++ r = t ++ ('(' :: (a ++ ')' :: r)) by simp]
      have : readArg 1 (')' :: r) = ([], ')' :: r) := by rw [readArg]; simp
      rw [tokPseudo_fn (readName_append hi (by intro c hc; cases hc; exact ascii_noname (by decide) (by decide))) hi.1
        (by rw [skipWs_blank ha (by intro c hc; cases hc; decide)]; exact this)]
      rfl
    · rw [← List.cons_append]; exact last_snoc (ascii_plain (by decide) (by decide))
    · intro sub _ next; exact ⟨.pseudo (U.lower t) none [], next, by rw [eraseSimple, eraseSel], fun _ _ => rfl⟩
  | @arg t a b x hi hn hx ha hb =>
    refine ⟨[.colon, .tag t, .parenOpen, .string x, .parenClose], nofun, (by intro r hr; cases hr), ⟨':', _, rfl, by decide, by decide, by decide, ascii_plain (by decide) (by decide), fun _ => ⟨ascii_noname (by decide) (by decide), by decide⟩, ?_⟩, ?_, ?_⟩
    · intro r hr
      rw [tokMain, if_neg (by decide), if_neg (by decide), if_neg (by decide), if_neg (by decide), if_neg (by decide), if_pos rfl]
      rw [show t ++ '(' :: a ++ x ++ b ++ [')'] ++ r = t ++ ('(' :: (a ++ (x ++ (b ++ ')' :: r)))) by simp]
      rw [tokPseudo_fn (readName_append hi (by intro c hc; cases hc; exact ascii_noname (by decide) (by decide))) hi.1 (readArg_text hx ha hb)]
      rw [strip_blank_right hx.2.1 hx.2.2.1 (blank_space hb), if_neg hx.1]
      rfl
    · rw [← List.cons_append]; exact last_snoc (ascii_plain (by decide) (by decide))
    · intro sub _ next
      refine ⟨.pseudo (U.lower t) (some x) [], next, by rw [eraseSimple, eraseSel], ?_⟩
      intro rest _
      show parseArg sub next (U.lower t) (some x) rest = _
      rw [parseArg]
      rw [if_neg fun h => hn h.1]
  | @not t a b x i hi hn hx' hx ha hb =>
    refine ⟨[.colon, .tag t, .parenOpen, .string x, .parenClose], nofun, (by intro r hr; cases hr), ⟨':', _, rfl, by decide, by decide, by decide, ascii_plain (by decide) (by decide), fun _ => ⟨ascii_noname (by decide) (by decide), by decide⟩, ?_⟩, ?_, ?_⟩
    · intro r hr
      rw [tokMain, if_neg (by decide), if_neg (by decide), if_neg (by decide), if_neg (by decide), if_neg (by decide), if_pos rfl]
      rw [show t ++ '(' :: a ++ x ++ b ++ [')'] ++ r = t ++ ('(' :: (a ++ (x ++ (b ++ ')' :: r)))) by simp]
      rw [tokPseudo_fn (readName_append hi (by intro c hc; cases hc; exact ascii_noname (by decide) (by decide))) hi.1 (readArg_text hx ha hb)]
      rw [strip_blank_right hx.2.1 hx.2.2.1 (blank_space hb), if_neg hx.1]
      rfl
    · rw [← List.cons_append]; exact last_snoc (ascii_plain (by decide) (by decide))
    · intro sub hs next
      obtain ⟨i', n', e1, e2⟩ := hs x i hx' ⟨_, _, rfl⟩ next
      refine ⟨.pseudo (U.lower t) (some x) i', n', by rw [eraseSimple, e2], ?_⟩
      intro rest _
      show parseArg sub next (U.lower t) (some x) rest = _
      rw [parseArg]
      rw [if_pos ⟨hn, hx.1⟩, e1]

/-! ### Equality up to keys -/

mutual
theorem sameSimple_iff : ∀ a b : Simple, sameSimple a b = true ↔ eraseSimple a = eraseSimple b
  | .tag _, b => by cases b <;> simp [sameSimple, eraseSimple]
  | .id _, b => by cases b <;> simp [sameSimple, eraseSimple]
  | .cls _, b => by cases b <;> simp [sameSimple, eraseSimple]
  | .universal, b => by cases b <;> simp [sameSimple, eraseSimple]
  | .attr _ _, b => by cases b <;> simp [sameSimple, eraseSimple]
  | .pseudo n a i, b => by
    cases b with
    | pseudo m c j =>
      simp only [sameSimple, eraseSimple, Bool.and_eq_true, decide_eq_true_eq, Simple.pseudo.injEq, sameSel_iff i j]
      constructor
      · rintro ⟨⟨h1, h2⟩, h3⟩; exact ⟨h1, h2, h3⟩
      · rintro ⟨h1, h2, h3⟩; exact ⟨⟨h1, h2⟩, h3⟩
    | _ => simp [sameSimple, eraseSimple]
theorem sameSimples_iff : ∀ a b : List Simple, sameSimples a b = true ↔ eraseSimples a = eraseSimples b
  | [], b => by cases b <;> simp [sameSimples, eraseSimples]
  | x :: xs, b => by
    cases b with
    | nil => simp [sameSimples, eraseSimples]
    | cons y ys => simp [sameSimples, eraseSimples, sameSimple_iff x y, sameSimples_iff xs ys]
theorem sameCompound_iff : ∀ a b : Compound, sameCompound a b = true ↔ eraseCompound a = eraseCompound b
  | .mk _ l, .mk _ m => by simp [sameCompound, eraseCompound, sameSimples_iff l m]
theorem sameComplex_iff : ∀ a b : Complex, sameComplex a b = true ↔ eraseComplex a = eraseComplex b
  | .one c, b => by
    cases b with
    | one d => simp [sameComplex, eraseComplex, sameCompound_iff c d]
    | comb => simp [sameComplex, eraseComplex]
  | .comb l o c, b => by
    cases b with
    | one d => simp [sameComplex, eraseComplex]
    | comb m p d => simp [sameComplex, eraseComplex, sameCompound_iff c d, sameComplex_iff l m, and_assoc]
theorem sameSel_iff : ∀ a b : List Complex, sameSel a b = true ↔ eraseSel a = eraseSel b
  | [], b => by cases b <;> simp [sameSel, eraseSel]
  | x :: xs, b => by
    cases b with
    | nil => simp [sameSel, eraseSel]
    | cons y ys => simp [sameSel, eraseSel, sameComplex_iff x y, sameSel_iff xs ys]
end

theorem eraseSimples_map (l : List Simple) : eraseSimples l = l.map eraseSimple := by
  induction l with
  | nil => rfl
  | cons a l ih => rw [eraseSimples, ih]; rfl

theorem eraseSel_map (l : Sel) : eraseSel l = l.map eraseComplex := by
  induction l with
  | nil => rfl
  | cons a l ih => rw [eraseSel, ih]; rfl

theorem erase_partCount (x : Complex) : partCount (eraseComplex x) = partCount x :=
  match x with
  | .one _ => by rw [eraseComplex]; rfl
  | .comb l _ _ => by rw [eraseComplex, partCount, partCount, erase_partCount l]

/-! ### Tokens -/

/-- The combinator that stands for white space before a token. -/
def sepTok (p ne : Bool) : List STok := if p && ne then [.comb .desc] else []

/-- The text `t` has the tokens `ts`. -/
def TokAs (U : Uni) (t : Str) (ts : List STok) : Prop :=
  ∀ p ne r, Boundary U r → tok U p ne (t ++ r) = (tok U false true r).map fun l => sepTok p ne ++ ts ++ l

/-- Facts about the ends of a text. -/
structure Ends (U : Uni) (t : Str) : Prop where
  head : ∃ c cs, t = c :: cs ∧ isHtmlSpace c = false ∧ U.isSpace c = false
  last : ∀ c, t.getLast? = some c → U.isSpace c = false

theorem SimpleTok.tokAs {t : Str} {x : Simple} {ts : List STok} (h : SimpleTok U inner t x ts) : TokAs U t ts := by
  intro p ne r hr
  obtain ⟨c, cs, rfl, h1, h2, h3, _, _, h5⟩ := h.head
  have hs : tokStep U p ne c (cs ++ r) = some (sepTok p ne ++ ts, false, r) := by
    rw [tokStep, if_neg (by rw [h1]; simp), h2]
    dsimp only
    rw [h5 r hr]
    simp [h3, sepTok]
  rw [List.cons_append, tok_cons p ne c (cs ++ r) hs]
  have : (ne || !(sepTok p ne ++ ts).isEmpty) = true := by
    have := h.ne
    cases ts with
    | nil => exact absurd rfl this
    | cons a as => cases e : sepTok p ne <;> simp
  rw [this]

theorem SimpleTok.ends {t : Str} {x : Simple} {ts : List STok} (h : SimpleTok U inner t x ts) : Ends U t := by
  obtain ⟨c, cs, e, h1, _, _, h4, _⟩ := h.head
  exact ⟨⟨c, cs, e, h1, h4⟩, h.last⟩

theorem Ends.append {t u : Str} (h : Ends U t) (hu : Ends U u) (w : Str) : Ends U (t ++ w ++ u) := by
  obtain ⟨c, cs, e, h1, h2⟩ := h.head
  refine ⟨⟨c, cs ++ w ++ u, by simp [e], h1, h2⟩, ?_⟩
  intro d hd
  obtain ⟨c', cs', e', _, _⟩ := hu.head
  rw [List.getLast?_append] at hd
  cases hl : u.getLast? with
  | none => rw [List.getLast?_eq_none_iff] at hl; rw [hl] at e'; cases e'
  | some y => rw [hl] at hd; cases hd; exact hu.last _ hl

/-- A list that goes on with a combinator, a comma or the end. -/
def Stops : List STok → Prop
  | .eof :: _ => True
  | .comma :: _ => True
  | .comb _ :: _ => True
  | _ => False

theorem Stops.parse {l : List STok} (h : Stops l) (next : Nat) : parseSimple U sub next l = .stop := by
  unfold Stops at h
  split at h <;> first | rfl | exact h.elim

theorem Stops.paren {l : List STok} (h : Stops l) : NoParen l := by
  rintro r rfl; exact h

theorem NoParen.append {l m : List STok} (h : NoParen l) (hn : l ≠ []) : NoParen (l ++ m) := by
  intro r hr
  cases l with
  | nil => exact hn rfl
  | cons a l =>
    rw [List.cons_append] at hr
    injection hr with h1 h2
    exact h l (by rw [h1])

/-! ### Compounds -/

structure CompoundTok (U : Uni) (lim : SelLimits) (sub : SubParser) (t : Str) (l : List Simple) (ts : List STok) : Prop where
  tok : TokAs U t ts
  ends : Ends U t
  ne : ts ≠ []
  paren : NoParen ts
  len : l.length ≤ ts.length
  parse : l.length ≤ lim.maxCompound → ∀ next, ∃ l' next', eraseSimples l' = l ∧ ∀ rest f, NoParen rest →
    parseSimples U lim sub (f + l.length) [] next (ts ++ rest) = parseSimples U lim sub f l' next' rest

theorem parseSimples_one {f next next' : Nat} {acc : List Simple} {x x' : Simple} {l : List Simple} {ts rest : List STok}
    (hp : parseSimple U sub next (ts ++ rest) = .got x' next' rest) (hx : eraseSimple x' = x) (ha : eraseSimples acc = l) (hm : x ∉ l)
    (hl : l.length < lim.maxCompound) : parseSimples U lim sub (f + 1) acc next (ts ++ rest) = parseSimples U lim sub f (acc ++ [x']) next' rest := by
  rw [parseSimples, hp]
  dsimp only
  rw [eraseSimples_map] at ha
  have h1 : acc.any (sameSimple x') = false := by
    rw [Bool.eq_false_iff]
    intro h
    rw [List.any_eq_true] at h
    obtain ⟨y, hy, h⟩ := h
    rw [sameSimple_iff, hx] at h
    exact hm (by rw [h, ← ha]; exact List.mem_map.2 ⟨y, hy, rfl⟩)
  have h2 : acc.length = l.length := by rw [← ha, List.length_map]
  rw [h1, if_neg (by simp), if_neg (by omega)]

theorem compound_tok {t : Str} {l : List Simple} (h : CompoundText U inner t l) (hs : ∀ x ∈ l, SubGood inner sub x) :
    ∃ ts, CompoundTok U lim sub t l ts := by
  induction h with
  | @one t x hx =>
    obtain ⟨ts, h⟩ := simple_tok hx
    have hlen : 1 ≤ ts.length := by cases ts with | nil => exact absurd rfl h.ne | cons => simp
    refine ⟨ts, h.tokAs, h.ends, h.ne, h.paren, hlen, ?_⟩
    intro hl next
    obtain ⟨x', n', he, hp⟩ := h.parse sub (hs x (by simp)) next
    refine ⟨[x'], n', by rw [eraseSimples, eraseSimples, he], ?_⟩
    intro rest f hr
    exact parseSimples_one (acc := []) (l := []) (hp rest hr) he rfl (by simp) hl
  | @more t u l x ht hu hn hm ih =>
    obtain ⟨ts, h⟩ := ih fun y hy => hs y (by simp [hy])
    obtain ⟨us, h'⟩ := simple_tok hu
    refine ⟨ts ++ us, ?_, ?_, ?_, h.paren.append h.ne, ?_, ?_⟩
    · intro p ne r hr
      rw [List.append_assoc, h.tok p ne (u ++ r), h'.tokAs false true r hr, Option.map_map]
      · cases tok U false true r with
        | none => rfl
        | some z => simp [sepTok]
      · intro c hc
        obtain ⟨d, ds, rfl, _, _, _, _, hb, _⟩ := h'.head
        cases hc
        exact hb hn
    · have := h.ends.append h'.ends []
      rwa [List.append_nil] at this
    · simp [h.ne]
    · have : 1 ≤ us.length := by cases us with | nil => exact absurd rfl h'.ne | cons => simp
      have := h.len
      simp; omega
    · intro hl next
      simp only [List.length_append, List.length_cons, List.length_nil] at hl
      obtain ⟨l', n1, he, hp⟩ := h.parse (by omega) next
      obtain ⟨x', n2, he2, hp2⟩ := h'.parse sub (hs x (by simp)) n1
      refine ⟨l' ++ [x'], n2, ?_, ?_⟩
      · rw [eraseSimples_map] at he ⊢
        rw [List.map_append, he]; simp [he2]
      · intro rest f hr
        rw [List.append_assoc]
        have e : f + (l ++ [x]).length = f + 1 + l.length := by simp; omega
        rw [e, hp (us ++ rest) (f + 1) (h'.paren.append h'.ne)]
        exact parseSimples_one (hp2 rest hr) he2 he hm (by omega)

theorem parseCompound_tok {t : Str} {l : List Simple} {ts : List STok} (h : CompoundTok U lim sub t l ts) (hl : l.length ≤ lim.maxCompound) (hn : l ≠ []) (next : Nat) :
    ∃ c next', eraseCompound c = .mk 0 l ∧ ∀ rest, Stops rest → parseCompound U lim sub next (ts ++ rest) = some (some c, next', rest) := by
  obtain ⟨l', n', he, hp⟩ := h.parse hl next
  refine ⟨.mk n' l', n' + 1, by rw [eraseCompound, he], ?_⟩
  intro rest hr
  have hlen := h.len
  have e : (ts ++ rest).length + 1 = ((ts ++ rest).length - l.length) + 1 + l.length := by
    simp only [List.length_append]; omega
  rw [parseCompound, e, hp rest _ hr.paren, parseSimples, hr.parse]
  dsimp only
  cases l' with
  | nil => rw [eraseSimples] at he; exact absurd he.symm hn
  | cons a as => rfl

theorem compoundText_ne {t : Str} {l : List Simple} (h : CompoundText U inner t l) : l ≠ [] := by
  cases h <;> simp

/-! ### Combinators and commas -/

theorem tok_blank {w r : Str} (hw : Blank w) (hr : ∀ c, r.head? = some c → isHtmlSpace c = false) (p ne : Bool) :
    tok U p ne (w ++ r) = tok U (p || !w.isEmpty) ne r := by
  cases w with
  | nil => simp
  | cons c w =>
    have hc : isHtmlSpace c = true := hw c (by simp)
    have hs : tokStep U p ne c (w ++ r) = some ([], true, r) := by
      rw [tokStep, if_pos hc, skipWs_blank (fun d hd => hw d (by simp [hd])) hr]
    rw [List.cons_append, tok_cons p ne c _ hs]
    simp

theorem Ends.space {t r : Str} (h : Ends U t) : ∀ c, (t ++ r).head? = some c → isHtmlSpace c = false := by
  obtain ⟨d, ds, rfl, h1, _⟩ := h.head
  intro c hc; cases hc; exact h1

theorem comb_sym {c : Char} {k : Comb} (hc : combOf c = some k) (hs : isHtmlSpace c = false) {b u : Str} {ts : List STok} (hb : Blank b) (hu : TokAs U u ts)
    (he : Ends U u) (p : Bool) (r : Str) (hr : Boundary U r) : tok U p true (c :: (b ++ (u ++ r))) = (tok U false true r).map fun l => .comb k :: ts ++ l := by
  have hst : tokStep U p true c (b ++ (u ++ r)) = some ([.comb k], false, u ++ r) := by
    rw [tokStep, if_neg (by rw [hs]; simp), hc]
    dsimp only
    rw [skipWs_blank hb he.space]
  rw [tok_cons p true c _ hst, hu false _ r hr, Option.map_map]
  cases tok U false true r with
  | none => rfl
  | some z => simp [sepTok]

theorem comb_tok {w u : Str} {k : Comb} {ts : List STok} (hw : CombText w k) (hu : TokAs U u ts) (he : Ends U u) (r : Str) (hr : Boundary U r) :
    tok U false true (w ++ (u ++ r)) = (tok U false true r).map fun l => .comb k :: ts ++ l := by
  cases hw with
  | desc hn hb =>
    rw [tok_blank hb he.space]
    have : (false || !w.isEmpty) = true := by cases w with | nil => exact absurd rfl hn | cons => rfl
    rw [this, hu true true r hr]
    rfl
  | child ha hb =>
    rw [List.append_assoc, tok_blank ha (by intro c hc; cases hc; decide), List.cons_append]
    exact comb_sym rfl (by decide) hb hu he _ r hr
  | adj ha hb =>
    rw [List.append_assoc, tok_blank ha (by intro c hc; cases hc; decide), List.cons_append]
    exact comb_sym rfl (by decide) hb hu he _ r hr
  | sib ha hb =>
    rw [List.append_assoc, tok_blank ha (by intro c hc; cases hc; decide), List.cons_append]
    exact comb_sym rfl (by decide) hb hu he _ r hr

theorem blank_boundary {w : Str} {x : Char} {r : Str} (hw : Blank w) (hx : isNameChar U x = false ∧ x ≠ '(') : Boundary U (w ++ x :: r) := by
  intro c hc
  cases w with
  | nil => cases hc; exact hx
  | cons d w =>
    rw [← Option.some.inj hc]
    have := hw d List.mem_cons_self
    exact ⟨(space_ascii this).2.2, by rintro rfl; exact absurd this (by decide)⟩

theorem comb_boundary {w : Str} {k : Comb} (hw : CombText w k) (r : Str) : Boundary U (w ++ r) := by
  cases hw with
  | desc hn hb =>
    cases w with
    | nil => exact absurd rfl hn
    | cons d w =>
      intro c hc
      rw [← Option.some.inj hc]
      have := hb d List.mem_cons_self
      exact ⟨(space_ascii this).2.2, by rintro rfl; exact absurd this (by decide)⟩
  | child ha hb => rw [List.append_assoc]; exact blank_boundary ha ⟨ascii_noname (by decide) (by decide), by decide⟩
  | adj ha hb => rw [List.append_assoc]; exact blank_boundary ha ⟨ascii_noname (by decide) (by decide), by decide⟩
  | sib ha hb => rw [List.append_assoc]; exact blank_boundary ha ⟨ascii_noname (by decide) (by decide), by decide⟩

/-! ### Complex selectors -/

structure ComplexTok (U : Uni) (lim : SelLimits) (sub : SubParser) (t : Str) (x : Complex) (ts : List STok) : Prop where
  tok : TokAs U t ts
  ends : Ends U t
  parse : partCount x ≤ max 1 lim.maxParts → (∀ c, PartOf c x → c.simples.length ≤ lim.maxCompound) → ∀ next, ∃ x' next', eraseComplex x' = x ∧
    ∀ rest, Stops rest → ∃ f, rest.length < f ∧
      parseComplex U lim sub next (ts ++ rest) = (parseParts U lim sub f x' next' rest).map fun y => (some y.1, y.2)

theorem complex_tok {t : Str} {x : Complex} (h : ComplexText U inner t x) (hs : ∀ c, PartOf c x → ∀ y ∈ c.simples, SubGood inner sub y) :
    ∃ ts, ComplexTok U lim sub t x ts := by
  induction h with
  | @one t l hl =>
    obtain ⟨ts, h⟩ := compound_tok (lim := lim) hl (hs _ .one)
    refine ⟨ts, h.tok, h.ends, ?_⟩
    intro _ hc next
    obtain ⟨c, n', he, hp⟩ := parseCompound_tok h (hc _ .one) (compoundText_ne hl) next
    refine ⟨.one c, n', by rw [eraseComplex, he], ?_⟩
    intro rest hr
    refine ⟨rest.length + 1, by omega, ?_⟩
    rw [parseComplex, hp rest hr]
  | @comb t w u x op l hx hw hl ih =>
    obtain ⟨ts, h⟩ := ih fun c hc => hs c (.left hc)
    obtain ⟨us, h'⟩ := compound_tok (lim := lim) hl (hs _ .last)
    refine ⟨ts ++ .comb op :: us, ?_, h.ends.append h'.ends w, ?_⟩
    · intro p ne r hr
      rw [List.append_assoc, List.append_assoc, h.tok p ne (w ++ (u ++ r)) (comb_boundary hw _), comb_tok hw h'.tok h'.ends r hr, Option.map_map]
      cases JH.tok U false true r with
      | none => rfl
      | some z => simp
    · intro hpc hc next
      rw [partCount] at hpc
      have h1 : 1 ≤ partCount x := by cases x <;> simp [partCount]
      obtain ⟨x', n1, he, hp⟩ := h.parse (by omega) (fun c hc' => hc c (.left hc')) next
      obtain ⟨c, n2, he2, hp2⟩ := parseCompound_tok h' (hc _ .last) (compoundText_ne hl) n1
      refine ⟨.comb x' op c, n2, by rw [eraseComplex, he, he2], ?_⟩
      intro rest hr
      obtain ⟨f, hf, e⟩ := hp (.comb op :: us ++ rest) trivial
      simp only [List.cons_append, List.length_cons, List.length_append] at hf
      obtain ⟨g, rfl⟩ : ∃ g, f = g + 1 := ⟨f - 1, by omega⟩
      refine ⟨g, by omega, ?_⟩
      rw [List.append_assoc, e]
      congr 1
      rw [List.cons_append, parseParts.eq_def]
      dsimp only
      rw [hp2 rest hr]
      dsimp only
      rw [if_neg]
      have : x'.length = partCount x := by rw [length_partCount, ← he, erase_partCount]
      omega

/-! ### Lists -/

/-- A list that goes on with a comma or the end. -/
def StopsL : List STok → Prop
  | .eof :: _ => True
  | .comma :: _ => True
  | _ => False

theorem StopsL.stops {l : List STok} (h : StopsL l) : Stops l := by
  unfold StopsL at h
  split at h
  · trivial
  · trivial
  · exact h.elim

theorem StopsL.parts {l : List STok} (h : StopsL l) (f : Nat) (x : Complex) (next : Nat) : parseParts U lim sub (f + 1) x next l = some (x, next, l) := by
  unfold StopsL at h
  split at h
  · rfl
  · rfl
  · exact h.elim

theorem ComplexTok.parseL {t : Str} {x : Complex} {ts : List STok} (h : ComplexTok U lim sub t x ts) (h1 : partCount x ≤ max 1 lim.maxParts)
    (h2 : ∀ c, PartOf c x → c.simples.length ≤ lim.maxCompound) (next : Nat) : ∃ x' next', eraseComplex x' = x ∧
    ∀ rest, StopsL rest → parseComplex U lim sub next (ts ++ rest) = some (some x', next', rest) := by
  obtain ⟨x', n', he, hp⟩ := h.parse h1 h2 next
  refine ⟨x', n', he, ?_⟩
  intro rest hr
  obtain ⟨f, hf, e⟩ := hp rest hr.stops
  obtain ⟨g, rfl⟩ : ∃ g, f = g + 1 := ⟨f - 1, by omega⟩
  rw [e, hr.parts]; rfl

structure ListTok (U : Uni) (lim : SelLimits) (sub : SubParser) (t : Str) (l : Sel) (ts : List STok) : Prop where
  tok : TokAs U t ts
  ends : Ends U t
  parse : LevelOk lim l → ∀ next, ∃ l' next', eraseSel l' = l ∧
    ∀ rest, StopsL rest → ∃ f, rest.length < f ∧ parseTokens U lim sub next (ts ++ rest) = parseList U lim sub f l' next' rest

theorem comma_tok {a b u : Str} {ts : List STok} (ha : Blank a) (hb : Blank b) (hu : TokAs U u ts) (he : Ends U u) (r : Str) (hr : Boundary U r) :
    tok U false true ((a ++ ',' :: b) ++ (u ++ r)) = (tok U false true r).map fun l => .comma :: ts ++ l := by
  rw [List.append_assoc, tok_blank ha (by intro c hc; cases hc; decide), List.cons_append]
  generalize (false || !a.isEmpty) = p
  have hst : tokStep U p true ',' (b ++ (u ++ r)) = some ([.comma], false, u ++ r) := by
    rw [tokStep, if_neg (by decide), show combOf ',' = none from rfl]
    have : tokMain U ',' (b ++ (u ++ r)) = some ([.comma], u ++ r) := by
      rw [tokMain, if_neg (by decide), if_neg (by decide), if_neg (by decide), if_neg (by decide), if_pos rfl, skipWs_blank hb he.space]
    dsimp only
    rw [this]
    simp
  rw [tok_cons p true ',' _ hst, hu false _ r hr, Option.map_map]
  cases tok U false true r with
  | none => rfl
  | some z => simp [sepTok]

theorem list_tok {t : Str} {l : Sel} (h : ListText U inner t l) (hs : ∀ x ∈ l, ∀ c, PartOf c x → ∀ y ∈ c.simples, SubGood inner sub y) :
    ∃ ts, ListTok U lim sub t l ts := by
  induction h with
  | @one t x hx =>
    obtain ⟨ts, h⟩ := complex_tok (lim := lim) hx (hs x (by simp))
    refine ⟨ts, h.tok, h.ends, ?_⟩
    intro hl next
    have hx := hl.2 x (by simp)
    obtain ⟨x', n', he, hp⟩ := h.parseL hx.1 hx.2 next
    refine ⟨[x'], n', by rw [eraseSel, eraseSel, he], ?_⟩
    intro rest hr
    refine ⟨rest.length + 1, by omega, ?_⟩
    rw [parseTokens, hp rest hr]
  | @more t a b u l x ht ha hb hu hm ih =>
    obtain ⟨ts, h⟩ := ih fun y hy => hs y (by simp [hy])
    obtain ⟨us, h'⟩ := complex_tok (lim := lim) hu (hs x (by simp))
    refine ⟨ts ++ .comma :: us, ?_, h.ends.append h'.ends _, ?_⟩
    · intro p ne r hr
      rw [List.append_assoc, List.append_assoc, h.tok p ne _ (by rw [List.append_assoc]; exact blank_boundary ha ⟨ascii_noname (by decide) (by decide), by decide⟩),
        comma_tok ha hb h'.tok h'.ends r hr, Option.map_map]
      cases JH.tok U false true r with
      | none => rfl
      | some z => simp
    · intro hl next
      have hlen := hl.1
      simp only [List.length_append, List.length_cons, List.length_nil] at hlen
      obtain ⟨l', n1, he, hp⟩ := h.parse ⟨by omega, fun y hy => hl.2 y (by simp [hy])⟩ next
      have hx := hl.2 x (by simp)
      obtain ⟨x', n2, he2, hp2⟩ := h'.parseL hx.1 hx.2 n1
      rw [eraseSel_map] at he
      have hle : l'.length = l.length := by rw [← he, List.length_map]
      have hl1 : l ≠ [] := by cases ht <;> simp
      have hl2 : 1 ≤ l.length := by cases l with | nil => exact absurd rfl hl1 | cons => simp
      refine ⟨l' ++ [x'], n2, ?_, ?_⟩
      · rw [eraseSel_map, List.map_append, he]; simp [he2]
      · intro rest hr
        obtain ⟨f, hf, e⟩ := hp (.comma :: us ++ rest) trivial
        simp only [List.cons_append, List.length_cons, List.length_append] at hf
        obtain ⟨g, rfl⟩ : ∃ g, f = g + 1 := ⟨f - 1, by omega⟩
        refine ⟨g, by omega, ?_⟩
        rw [List.append_assoc, e, List.cons_append, parseList.eq_def]
        dsimp only
        rw [hp2 rest hr]
        dsimp only
        have hany : l'.any (sameComplex x') = false := by
          rw [Bool.eq_false_iff]
          intro hh
          rw [List.any_eq_true] at hh
          obtain ⟨y, hy, hh⟩ := hh
          rw [sameComplex_iff, he2] at hh
          exact hm (by rw [hh, ← he]; exact List.mem_map.2 ⟨y, hy, rfl⟩)
        rw [hany, if_neg (by simp), if_neg (by omega)]

/-! ### Selectors -/

theorem listText_ne {t : Str} {l : Sel} (h : ListText U inner t l) : l ≠ [] := by
  cases h <;> simp

theorem tokenize_tok {s : Str} {ts : List STok} (h : TokAs U s ts) : tokenize U s = some (ts ++ [.eof]) := by
  have := h false false [] (by intro c hc; cases hc)
  rw [List.append_nil, tok_nil] at this
  rw [tokenize]
  exact this

theorem parse_level {d : Nat} {s : Str} {sel : Sel} (h : ListText U inner s sel) (hs : ∀ x ∈ sel, ∀ c, PartOf c x → ∀ y ∈ c.simples, SubGood inner (parseSelAt U lim d) y)
    (hl : LevelOk lim sel) (next : Nat) : ∃ sel' next', parseSelAt U lim (d + 1) s next = some (sel', next') ∧ eraseSel sel' = sel := by
  obtain ⟨ts, ht⟩ := list_tok (lim := lim) h hs
  obtain ⟨l', n', he, hp⟩ := ht.parse hl next
  obtain ⟨f, hf, e⟩ := hp [.eof] trivial
  refine ⟨l', n', ?_, he⟩
  rw [parseSelAt, tokenize_tok ht.tok]
  dsimp only
  rw [e]
  obtain ⟨g, rfl⟩ : ∃ g, f = g + 1 := ⟨f - 1, by omega⟩
  rfl

theorem parseSelAt_text : ∀ (d k : Nat) (s : Str) (sel : Sel), SelText U k s sel → LevelsOk lim d sel → ∀ next,
    ∃ sel' next', parseSelAt U lim d s next = some (sel', next') ∧ eraseSel sel' = sel
  | 0, k, s, sel, h, hl, next => by
    have hne : sel ≠ [] := by cases k <;> exact listText_ne h
    exact absurd (hl 0 sel .here hne).1 (by omega)
  | d + 1, 0, s, sel, h, hl, next => by
    have hne : sel ≠ [] := listText_ne h
    refine parse_level h ?_ (hl 0 sel .here hne).2 next
    intro x _ c _ y _ s i hi; exact hi.elim
  | d + 1, k + 1, s, sel, h, hl, next => by
    have hne : sel ≠ [] := listText_ne h
    refine parse_level h ?_ (hl 0 sel .here hne).2 next
    rintro x hx c hc y hy s i hi ⟨n, a, rfl⟩ next
    refine parseSelAt_text d k s i hi ?_ next
    intro j t ht hne'
    have := hl (j + 1) t (.down hx hc hy ht) hne'
    exact ⟨by omega, this.2⟩

theorem text_ends {k : Nat} {s : Str} {sel : Sel} (h : SelText U k s sel) : Ends U s := by
  have key : ∀ {inner : Str → Sel → Prop} {s : Str} {sel : Sel}, ListText U inner s sel → Ends U s := by
    intro inner s sel h
    have hh : ∀ {t : Str} {l : List Simple}, CompoundText U inner t l → Ends U t := by
      intro t l h
      induction h with
      | one hx => obtain ⟨_, h⟩ := simple_tok hx; exact h.ends
      | more _ hx _ _ ih =>
        obtain ⟨_, h⟩ := simple_tok hx
        have := ih.append h.ends []
        rwa [List.append_nil] at this
    have hx : ∀ {t : Str} {x : Complex}, ComplexText U inner t x → Ends U t := by
      intro t x h
      induction h with
      | one hl => exact hh hl
      | comb _ _ hl ih => exact ih.append (hh hl) _
    induction h with
    | one h => exact hx h
    | more _ _ _ h _ ih => exact ih.append (hx h) _
  cases k <;> exact key h

end JH
