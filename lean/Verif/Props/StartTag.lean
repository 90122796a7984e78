import Verif.Props.Markup
import Verif.Model.StartTag

/-! Property C03: serialized start tags read back as the same tag and attributes. -/
namespace JH

theorem takeWhile_append_stop {p : Char → Bool} {a b : Str} (ha : ∀ c ∈ a, p c = true)
    (hb : ∀ c, b.head? = some c → p c = false) :
    (a ++ b).takeWhile p = a ∧ (a ++ b).dropWhile p = b := by
  induction a with
  | nil =>
    cases b with
    | nil => simp
    | cons c b => have := hb c rfl; simp [this]
  | cons c a ih =>
    have := ih (fun x hx => ha x (by simp [hx]))
    simp [ha c (by simp), this]

theorem parseAttrsF_lstrip (U : Uni) (T : EntTables) (n : Nat) (acc : List (Str × Str)) (s : Str) :
    parseAttrsF U T n acc (lstripP isHtmlSpace s) = parseAttrsF U T n acc s := by
  cases n with
  | zero => rfl
  | succ n =>
    have : lstripP isHtmlSpace (lstripP isHtmlSpace s) = lstripP isHtmlSpace s := by
      unfold lstripP
      induction s with
      | nil => rfl
      | cons c s ih =>
        by_cases h : isHtmlSpace c = true
        · simp [h, ih]
        · simp [h]
    simp only [parseAttrsF, this]

theorem attrNameChar_iff (c : Char) : attrNameChar c = true → isAttrNameStop c = false ∧ isHtmlSpace c = false ∧ c ≠ '=' ∧ c ≠ '>' ∧ c ≠ '/' := by
  intro h
  simp only [attrNameChar, tagNameChar, Bool.and_eq_true, Bool.not_eq_true', Bool.or_eq_false_iff, decide_eq_false_iff_not] at h
  simp [isAttrNameStop, isTagNameStop, isHtmlSpace, h]

theorem validAttrName_chars {name : Str} (h : validAttrName name = true) :
    ∃ c cs, dropNL name = c :: cs ∧ ∀ x ∈ c :: cs, attrNameChar x = true := by
  simp only [validAttrName, Bool.and_eq_true, Bool.not_eq_true', List.isEmpty_eq_false_iff, List.all_eq_true] at h
  cases hx : dropNL name with
  | nil => exact absurd hx h.1
  | cons c cs => exact ⟨c, cs, rfl, by rw [← hx]; exact h.2⟩

/-- What may follow an attribute: it starts with a space or `>`, and its first non-space character is not `=`. -/
def FollowOk (Y : Str) : Prop :=
  (Y.head? = some ' ' ∨ Y.head? = some '>') ∧ (lstripP isHtmlSpace Y).head? ≠ some '='

theorem attrValue_other (U : Uni) (T : EntTables) (s : Str) (h : s.head? ≠ some '=') : attrValue U T s = .ok ([], s) := by
  unfold attrValue
  split
  · simp at h
  · rfl

/-- The name part of a serialized attribute is read back, whatever follows. -/
theorem parse_name (U : Uni) (T : EntTables) (n : Nat) (acc : List (Str × Str)) (key Z : Str) (hk : validAttrName key = true)
    (hZ : Z.head? = some '=' ∨ Z.head? = some ' ' ∨ Z.head? = some '>') :
    parseAttrsF U T (n + 1) acc (' ' :: key ++ Z) =
      match attrValue U T (lstripP isHtmlSpace Z) with
      | .error => .error
      | .unclosed => .unclosed
      | .ok (v, rest) => parseAttrsF U T n (setDefault acc (nulFix (U.lower (dropNL key))) v) rest := by
  obtain ⟨c, cs, hd, hcs⟩ := validAttrName_chars hk
  have hc := attrNameChar_iff c (hcs c (by simp))
  obtain ⟨W, hW1, hW2, hW3⟩ : ∃ W, key ++ Z = (c :: cs) ++ W ∧ lstripP isHtmlSpace W = lstripP isHtmlSpace Z ∧
      (∀ x, W.head? = some x → (!isAttrNameStop x) = false) := by
    have hstop : ∀ x, Z.head? = some x → (!isAttrNameStop x) = false := by
      intro x hx
      rcases hZ with h | h | h <;> rw [h] at hx <;> cases hx <;> decide
    rcases dropNL_cases key with h | h
    · refine ⟨Z, ?_, rfl, hstop⟩
      rw [← hd, ← h]
    · refine ⟨'\n' :: Z, ?_, ?_, ?_⟩
      · rw [← hd]; conv => lhs; rw [h]
        simp
      · simp [lstripP, isHtmlSpace]
      · intro x hx; simp at hx; subst hx; decide
  have hsp : lstripP isHtmlSpace (' ' :: key ++ Z) = c :: (cs ++ W) := by
    rw [List.cons_append, hW1]
    have h1 : isHtmlSpace ' ' = true := by decide
    simp [lstripP, h1, hc.2.1]
  simp only [parseAttrsF, hsp]
  rw [if_neg hc.2.2.2.1, if_neg (by simp [hc.2.2.2.2])]
  have ht := takeWhile_append_stop (p := fun x => !isAttrNameStop x) (a := c :: cs) (b := W)
    (fun x hx => by simp [(attrNameChar_iff x (hcs x hx)).1]) hW3
  rw [List.cons_append] at ht
  rw [ht.1, ht.2, hW2]
  simp only [hd, List.isEmpty_cons, Bool.false_eq_true, if_false]
  rfl

theorem splitAt1_append {q : Char} {a b : Str} (h : q ∉ a) : splitAt1 q (a ++ q :: b) = some (a, b) := by
  induction a with
  | nil => simp [splitAt1]
  | cons c a ih =>
    simp only [List.mem_cons, not_or] at h
    have : c ≠ q := fun e => h.1 e.symm
    simp [splitAt1, this, ih h.2]

/-- decoding the escaped value gives the value with NUL replaced -/
theorem decodeAttrValue_of {U : Uni} {T : EntTables} {raw v : Str} (h : decodeEntities U T true raw = some v) :
    decodeAttrValue U T raw = some (nulFix v) := by
  unfold decodeAttrValue
  split
  · rw [h]; rfl
  · rename_i hc
    have hc' : '&' ∉ raw := by simpa using hc
    have := C14_no_amp_unchanged U T true raw hc'
    rw [h] at this
    cases this
    rfl

/-- escaping of one character of an unquoted value -/
def escU1 (c : Char) : Str := if c = '&' then c%"&amp;" else if c = '<' then c%"&lt;" else [c]

theorem escapeUnquoted_eq (v : Str) : escapeUnquoted v = v.flatMap escU1 := by
  unfold escapeUnquoted
  induction v with
  | nil => rfl
  | cons c v ih =>
    rw [replaceC_cons, replaceC_append, ih, List.flatMap_cons]
    congr 1
    unfold escU1
    split
    · decide
    · rw [replaceC_cons]; simp

theorem decode_escapeUnquoted (U : Uni) (T : EntTables) (v : Str) :
    decodeEntities U T true (escapeUnquoted v) = some v := by
  have h : ∀ c s, decodeEntities U T true (escU1 c ++ s) = (decodeEntities U T true s).map ([c] ++ ·) := by
    intro c s
    by_cases hg : c = '>'
    · subst hg
      exact decode_append_plain U T true ['>'] s (by decide)
    · have : escU1 c = esc1 c := by
        unfold escU1 esc1
        repeat' split
        all_goals simp_all
      rw [this]; exact decode_esc1 U T true c s
  have := decode_flatMap U T true escU1 h v []
  simpa [escapeUnquoted_eq, decodeEntities_nil] using this

theorem canUnquote_iff {v : Str} (h : canUnquote v = true) :
    ∀ c ∈ v, isHtmlSpace c = false ∧ c ≠ '"' ∧ c ≠ '\'' ∧ c ≠ '=' ∧ c ≠ '>' := by
  intro c hc
  simp only [canUnquote, List.all_eq_true] at h
  have := h c hc
  simpa [and_assoc] using this

/-- The value an attribute is read back with: minimized attributes have the empty value, NUL becomes U+FFFD. -/
def readValue (U : Uni) (o : TagOpts) (name key : Str) (v : Option Str) : Str :=
  if minimized U o name key v then [] else nulFix (v.getD [])

/-- One serialized attribute is read back as one attribute. -/
theorem parse_attr (U : Uni) (T : EntTables) (o : TagOpts) (name : Str) (n : Nat) (acc : List (Str × Str))
    (key : Str) (v : Option Str) (Y : Str) (hk : validAttrName key = true) (hY : FollowOk Y) :
    parseAttrsF U T (n + 1) acc (serializeAttr U o name key v ++ Y) =
      parseAttrsF U T n (setDefault acc (nulFix (U.lower (dropNL key))) (readValue U o name key v)) Y := by
  unfold serializeAttr readValue
  by_cases hm : minimized U o name key v = true
  · rw [if_pos hm, if_pos hm, parse_name U T n acc key Y hk (Or.inr hY.1), attrValue_other U T _ hY.2]
    exact parseAttrsF_lstrip U T n _ Y
  · rw [if_neg hm, if_neg hm]
    generalize hval : v.getD [] = val
    dsimp only
    have heq : isHtmlSpace '=' = false := by decide
    by_cases he : val.isEmpty = true
    · rw [if_pos he]
      have hv : val = [] := by simpa using he
      rw [List.append_assoc, List.cons_append, ← List.cons_append, parse_name U T n acc key _ hk (by simp)]
      have : attrValue U T (lstripP isHtmlSpace (c%"=\"\"" ++ Y)) = .ok ([], Y) := by
        simp [lstripP, heq, attrValue, show isHtmlSpace '"' = false by decide, splitAt1, decodeAttrValue, nulFix]
      have e2 : ("=\"\"".toList : Str) = c%"=\"\"" := by decide
      first
        | rw [this]
        | rw [e2, this]
      simp [hv, nulFix]
    · rw [if_neg he]
      by_cases hu : (!o.quoteAttrValues && canUnquote val) = true
      · rw [if_pos hu]
        simp only [Bool.and_eq_true] at hu
        have hcs := canUnquote_iff hu.2
        obtain ⟨w, ws, rfl⟩ : ∃ w ws, val = w :: ws := by
          cases val with
          | nil => simp at he
          | cons w ws => exact ⟨w, ws, rfl⟩
        have hmem : ∀ c ∈ escapeUnquoted (w :: ws), isAttrValueStop c = false := by
          intro c hc
          rw [escapeUnquoted_eq, List.mem_flatMap] at hc
          obtain ⟨d, hd, hc⟩ := hc
          unfold escU1 at hc
          split at hc
          · revert hc; revert c; decide
          · split at hc
            · revert hc; revert c; decide
            · simp only [List.mem_singleton] at hc
              subst hc
              have := hcs c hd
              simp [isAttrValueStop, this]
        obtain ⟨x, xs, hx, hx1, hx2⟩ : ∃ x xs, escapeUnquoted (w :: ws) = x :: xs ∧ isHtmlSpace x = false ∧ (x = '"' || x = '\'') = false := by
          rw [escapeUnquoted_eq, List.flatMap_cons]
          unfold escU1
          have h4 := hcs w (by simp)
          split
          · exact ⟨_, _, rfl, by decide, by decide⟩
          · split
            · exact ⟨_, _, rfl, by decide, by decide⟩
            · exact ⟨_, _, rfl, h4.1, by simp [h4]⟩
        have hsplit : (' ' :: key ++ '=' :: escapeUnquoted (w :: ws)) ++ Y = ' ' :: key ++ ('=' :: (escapeUnquoted (w :: ws) ++ Y)) := by simp
        rw [hsplit, parse_name U T n acc key _ hk (by simp)]
        have hl : lstripP isHtmlSpace ('=' :: (escapeUnquoted (w :: ws) ++ Y)) = '=' :: (escapeUnquoted (w :: ws) ++ Y) := by
          simp [lstripP, heq]
        have hl2 : lstripP isHtmlSpace (escapeUnquoted (w :: ws) ++ Y) = x :: (xs ++ Y) := by
          rw [hx]; simp [lstripP, hx1]
        have htw := takeWhile_append_stop (p := fun x => !isAttrValueStop x) (a := escapeUnquoted (w :: ws)) (b := Y)
          (fun c hc => by simp [hmem c hc])
          (fun c hc => by rcases hY.1 with h | h <;> rw [h] at hc <;> cases hc <;> decide)
        rw [hx, List.cons_append] at htw
        rw [hl]
        simp only [attrValue, hl2, hx2, Bool.false_eq_true, if_false]
        rw [htw.1, htw.2, ← hx, decodeAttrValue_of (decode_escapeUnquoted U T (w :: ws))]
      · rw [if_neg hu]
        have hq := C02_quote_choice o.quoteChar val
        generalize chooseAttrQuote o.quoteChar val = q at hq
        have hsplit : (' ' :: key ++ '=' :: q :: escapeAttr q val ++ [q]) ++ Y = ' ' :: key ++ ('=' :: q :: (escapeAttr q val ++ q :: Y)) := by simp
        rw [hsplit, parse_name U T n acc key _ hk (by simp)]
        have hqs : isHtmlSpace q = false := by rcases hq with rfl | rfl <;> decide
        have hq2 : (q = '"' || q = '\'') = true := by rcases hq with rfl | rfl <;> decide
        have hl : lstripP isHtmlSpace ('=' :: q :: (escapeAttr q val ++ q :: Y)) = '=' :: q :: (escapeAttr q val ++ q :: Y) := by
          simp [lstripP, heq]
        have hl2 : lstripP isHtmlSpace (q :: (escapeAttr q val ++ q :: Y)) = q :: (escapeAttr q val ++ q :: Y) := by
          simp [lstripP, hqs]
        rw [hl]
        simp only [attrValue, hl2, hq2, if_true]
        rw [splitAt1_append (C02_attr_contained q hq val).1]
        simp only []
        rw [decodeAttrValue_of (C02_attr_roundtrip U T q hq val)]

/-- Specification: attributes in order, the first of several with the same name wins. -/
def firstWins : List (Str × Str) → List (Str × Str)
  | [] => []
  | a :: as => a :: (firstWins as).filter (fun b => b.1 ≠ a.1)

theorem foldl_setDefault (l acc : List (Str × Str)) :
    l.foldl (fun acc a => setDefault acc a.1 a.2) acc = acc ++ (firstWins l).filter (fun b => !acc.any (fun a => a.1 = b.1)) := by
  induction l generalizing acc with
  | nil => simp [firstWins]
  | cons a l ih =>
    rw [List.foldl_cons, ih]
    unfold setDefault
    simp only [firstWins]
    by_cases h : acc.any (fun b => b.1 = a.1) = true
    · rw [if_pos h, List.filter_cons, if_neg (by simp [h]), List.filter_filter]
      congr 1
      apply List.filter_congr
      intro b _
      by_cases hb : b.1 = a.1
      · simp [hb]; simpa using h
      · simp [hb]
    · rw [if_neg h, List.filter_cons, if_pos (by simp [Bool.not_eq_true _ ▸ h]), List.filter_filter, List.append_assoc]
      congr 1
      simp only [List.singleton_append, List.cons.injEq, true_and]
      apply List.filter_congr
      intro b _
      simp only [List.any_append, List.any_cons, List.any_nil, Bool.or_false, Bool.not_or]
      congr 1
      by_cases hb : b.1 = a.1
      · simp [hb]
      · have : ¬ a.1 = b.1 := fun e => hb e.symm
        simp [hb, this]

theorem setDefault_eq_firstWins (l : List (Str × Str)) :
    l.foldl (fun acc a => setDefault acc a.1 a.2) [] = firstWins l := by
  rw [foldl_setDefault]; simp

theorem firstWins_nodup (l : List (Str × Str)) (h : (l.map (·.1)).Nodup) : firstWins l = l := by
  induction l with
  | nil => rfl
  | cons a l ih =>
    simp only [List.map_cons, List.nodup_cons] at h
    rw [firstWins, ih h.2]
    congr 1
    rw [List.filter_eq_self]
    intro b hb
    have : b.1 ≠ a.1 := fun e => h.1 (e ▸ List.mem_map_of_mem hb)
    simp [this]

/-- The text after the attributes: `>` or ` />`. -/
theorem parse_close (U : Uni) (T : EntTables) (n : Nat) (acc : List (Str × Str)) (sol : Bool) (rest : Str) :
    parseAttrsF U T (n + 1) acc ((if sol then c%" />" else c%">") ++ rest) = .ok (acc, sol, rest) := by
  cases sol with
  | false => simp [parseAttrsF, lstripP, isHtmlSpace]
  | true => simp [parseAttrsF, lstripP, isHtmlSpace]

theorem followOk_tail (U : Uni) (o : TagOpts) (name : Str) (attrs : List (Str × Option Str))
    (ha : ∀ a ∈ attrs, validAttrName a.1 = true) (sol : Bool) (rest : Str) :
    FollowOk (attrs.flatMap (fun a => serializeAttr U o name a.1 a.2) ++ ((if sol then c%" />" else c%">") ++ rest)) := by
  cases attrs with
  | nil => cases sol <;> simp [FollowOk, lstripP, isHtmlSpace]
  | cons a as =>
    obtain ⟨c, cs, hd, hcs⟩ := validAttrName_chars (ha a (by simp))
    have hc := attrNameChar_iff c (hcs c (by simp))
    have hkey : ∃ cs', a.1 = c :: cs' := by
      rcases dropNL_cases a.1 with h | h
      · exact ⟨cs, by rw [h, hd]⟩
      · exact ⟨cs ++ ['\n'], by rw [h, hd]; rfl⟩
    obtain ⟨cs', hkey⟩ := hkey
    have hs : ∃ t, serializeAttr U o name a.1 a.2 = ' ' :: c :: t := by
      unfold serializeAttr
      rw [hkey]
      dsimp only
      repeat' split
      all_goals exact ⟨_, rfl⟩
    obtain ⟨t, hs⟩ := hs
    rw [List.flatMap_cons, hs]
    have h1 : isHtmlSpace ' ' = true := by decide
    simp [FollowOk, lstripP, h1, hc.2.1, hc.2.2.1]

theorem parse_attrs_all (U : Uni) (T : EntTables) (o : TagOpts) (name : Str) (sol : Bool) (rest : Str) :
    ∀ (attrs : List (Str × Option Str)) (n : Nat) (acc : List (Str × Str)),
    (∀ a ∈ attrs, validAttrName a.1 = true) → attrs.length < n →
    parseAttrsF U T n acc (attrs.flatMap (fun a => serializeAttr U o name a.1 a.2) ++ ((if sol then c%" />" else c%">") ++ rest))
      = .ok ((attrs.map (fun a => (nulFix (U.lower (dropNL a.1)), readValue U o name a.1 a.2))).foldl
          (fun acc a => setDefault acc a.1 a.2) acc, sol, rest) := by
  intro attrs
  induction attrs with
  | nil =>
    intro n acc _ hn
    cases n with
    | zero => simp at hn
    | succ n => simpa using parse_close U T n acc sol rest
  | cons a as ih =>
    intro n acc ha hn
    cases n with
    | zero => simp at hn
    | succ n =>
      have has : ∀ a ∈ as, validAttrName a.1 = true := fun x hx => ha x (by simp [hx])
      rw [List.flatMap_cons, List.append_assoc, parse_attr U T o name n acc a.1 a.2 _ (ha a (by simp)) (followOk_tail U o name as has sol rest),
        ih n _ has (by simpa using hn)]
      simp

theorem serializeAttr_pos (U : Uni) (o : TagOpts) (name key : Str) (v : Option Str) : 1 ≤ (serializeAttr U o name key v).length := by
  unfold serializeAttr
  dsimp only
  repeat' split
  all_goals simp

/-- C03: the scanner reads a serialized start tag back as exactly one start tag, consuming exactly the serialized text,
with the same name (lower-cased), the same attributes in order (names lower-cased, NUL replaced as HTML requires, values
read back exactly) and self-closing exactly when the serializer wrote the solidus. This holds for every combination of
options; attributes written in minimized form read back with the empty value. -/
theorem C03_start_tag_roundtrip (U : Uni) (T : EntTables) (o : TagOpts) (name : Str) (attrs : List (Str × Option Str))
    (out rest : Str) (h : serializeStartTag U o name attrs = some out) :
    ∃ body, out = '<' :: body ∧ parseStartTag U T (body ++ rest) =
      .ok (U.lower (dropNL name),
        firstWins (attrs.map fun a => (nulFix (U.lower (dropNL a.1)), readValue U o name a.1 a.2)),
        o.trailingSolidus && o.isVoid, rest) := by
  unfold serializeStartTag at h
  cases hv : validTagName name with
  | false => simp [hv] at h
  | true =>
    cases ha : attrs.all (fun a => validAttrName a.1) with
    | false => simp [hv, ha] at h
    | true =>
      simp only [hv, ha, Bool.not_true, Bool.false_eq_true, if_false, Option.some.injEq] at h
      have ha' : ∀ a ∈ attrs, validAttrName a.1 = true := by simpa using ha
      let Z := attrs.flatMap (fun a => serializeAttr U o name a.1 a.2) ++ ((if o.trailingSolidus && o.isVoid then c%" />" else c%">") ++ rest)
      refine ⟨name ++ attrs.flatMap (fun a => serializeAttr U o name a.1 a.2) ++
        (if (o.trailingSolidus && o.isVoid) = true then c%" />" else c%">"), ?_, ?_⟩
      · rw [← h]; simp
      · have hF := followOk_tail U o name attrs ha' (o.trailingSolidus && o.isVoid) rest
        obtain ⟨c, cs, hx, hc, hcs⟩ := validTagName_chars hv
        have htag : ∀ x, tagNameChar x = true → isTagNameStop x = false := by
          intro x hx
          simp only [tagNameChar, Bool.not_eq_true', Bool.or_eq_false_iff, decide_eq_false_iff_not] at hx
          simp [isTagNameStop, hx]
        have hname : ∀ x ∈ c :: cs, (!isTagNameStop x) = true := by
          intro x hx
          simp only [List.mem_cons] at hx
          rcases hx with rfl | hx
          · simp [htag _ (isAsciiAlpha_tagNameChar hc)]
          · simp [htag _ (hcs x hx)]
        obtain ⟨W, hW1, hW2, hW3, hW4⟩ : ∃ W, name ++ Z = (c :: cs) ++ W ∧ (∀ n acc, parseAttrsF U T n acc W = parseAttrsF U T n acc Z) ∧
            (∀ x, W.head? = some x → (!isTagNameStop x) = false) ∧ attrs.length < W.length := by
          have hlen : ∀ as : List (Str × Option Str), as.length ≤ (as.flatMap (fun a => serializeAttr U o name a.1 a.2)).length := by
            intro as
            induction as with
            | nil => simp
            | cons a as ih =>
              have := serializeAttr_pos U o name a.1 a.2
              simp only [List.flatMap_cons, List.length_append, List.length_cons] at ih ⊢
              omega
          have hZl : attrs.length < Z.length := by
            have h1 := hlen attrs
            have : 1 ≤ (if (o.trailingSolidus && o.isVoid) = true then c%" />" else c%">").length := by
              split <;> decide
            simp only [Z, List.length_append]
            omega
          have hstop : ∀ x, Z.head? = some x → (!isTagNameStop x) = false := by
            intro x hx
            rcases hF.1 with h | h <;> rw [show Z.head? = _ from h] at hx <;> cases hx <;> decide
          rcases dropNL_cases name with h | h
          · exact ⟨Z, by rw [← hx, ← h], fun _ _ => rfl, hstop, hZl⟩
          · refine ⟨'\n' :: Z, ?_, ?_, ?_, by simp; omega⟩
            · rw [← hx]; conv => lhs; rw [h]
              simp
            · intro n acc
              rw [← parseAttrsF_lstrip, ← parseAttrsF_lstrip U T n acc Z]
              simp [lstripP, isHtmlSpace]
            · intro x hx; simp at hx; subst hx; decide
        have ht := takeWhile_append_stop (p := fun x => !isTagNameStop x) hname hW3
        have hbody : name ++ attrs.flatMap (fun a => serializeAttr U o name a.1 a.2) ++
            (if (o.trailingSolidus && o.isVoid) = true then c%" />" else c%">") ++ rest = (c :: cs) ++ W := by
          rw [← hW1]; simp [Z]
        rw [hbody]
        simp only [parseStartTag, ht.1, ht.2, List.isEmpty_cons, Bool.false_eq_true, if_false]
        unfold parseAttrs
        rw [hW2, parse_attrs_all U T o name _ rest attrs _ [] ha' (by omega), setDefault_eq_firstWins, hx]

/-- C03: with distinct attribute names nothing is dropped. -/
theorem C03_distinct_names (U : Uni) (T : EntTables) (o : TagOpts) (name : Str) (attrs : List (Str × Option Str))
    (out rest : Str) (h : serializeStartTag U o name attrs = some out)
    (hd : (attrs.map fun a => nulFix (U.lower (dropNL a.1))).Nodup) :
    ∃ body, out = '<' :: body ∧ parseStartTag U T (body ++ rest) =
      .ok (U.lower (dropNL name), attrs.map fun a => (nulFix (U.lower (dropNL a.1)), readValue U o name a.1 a.2),
        o.trailingSolidus && o.isVoid, rest) := by
  obtain ⟨body, h1, h2⟩ := C03_start_tag_roundtrip U T o name attrs out rest h
  refine ⟨body, h1, ?_⟩
  rw [h2, firstWins_nodup]
  simpa [Function.comp_def] using hd

/-- C03: without boolean minimization every value, including the empty one, is read back exactly (up to NUL). -/
theorem C03_values_without_minimization (U : Uni) (o : TagOpts) (name key : Str) (v : Option Str)
    (hm : o.minimizeBoolean = false) : readValue U o name key v = nulFix (v.getD []) := by
  simp [readValue, minimized, hm]

/-- C03: with minimization, only boolean attributes of HTML elements whose value equals their name lose their value. -/
theorem C03_values_with_minimization (U : Uni) (o : TagOpts) (name key v : Str)
    (hb : o.htmlNs = false ∨ isBooleanAttr (U.lower name) (U.lower key) = false ∨ v.all isAscii = false ∨ U.lower v ≠ U.lower key) :
    readValue U o name key (some v) = nulFix v := by
  unfold readValue minimized
  cases v with
  | nil => simp [nulFix]
  | cons c v =>
    rcases hb with h | h | h | h <;> simp [h]

example : serializeStartTag Uni.sample { quoteAttrValues := false } c%"A" [(c%"Href", some c%"x&y"), (c%"t", some c%"a b"), (c%"d", none)]
    = some c%"<A Href=x&amp;y t=\"a b\" d>" := by decide
example : parseStartTag Uni.sample EntTables.sample c%"A Href=x&amp;y t=\"a b\" d>rest"
    = .ok (c%"a", [(c%"href", c%"x&y"), (c%"t", c%"a b"), (c%"d", [])], false, c%"rest") := by decide

end JH
