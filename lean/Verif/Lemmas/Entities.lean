import Verif.Model.Entities
import Verif.Model.Escape
import Verif.Lemmas.Py
import Verif.Spec.Numeric

namespace JH

theorem length_dropWhile_le {α} (p : α → Bool) (l : List α) : (l.dropWhile p).length ≤ l.length :=
  (List.dropWhile_suffix p).length_le

theorem numericTail_length {U : Uni} {hex : Bool} {pre body o r : Str}
    (h : numericTail U hex pre body = some (o, r)) : r.length ≤ body.length := by
  unfold numericTail at h
  simp only at h
  generalize (if hex = true then isHexC else U.isDigit) = isD at h
  have hd := length_dropWhile_le isD body
  have hr : (if (body.dropWhile isD).head? = some ';' then (body.dropWhile isD).tail
      else body.dropWhile isD).length ≤ body.length := by
    split
    · simp; omega
    · omega
  split at h
  · simp only [Option.some.injEq, Prod.mk.injEq] at h; rw [← h.2]; exact hr
  · split at h
    · simp only [Option.some.injEq, Prod.mk.injEq] at h; rw [← h.2]; exact hr
    · simp at h

theorem numericRef_length {U : Uni} {ds o r : Str} (h : numericRef U ds = some (o, r)) :
    r.length ≤ ds.length := by
  unfold numericRef at h
  split at h
  · have := numericTail_length h
    simp at this; omega
  · exact numericTail_length h

theorem namedRef_length (U : Uni) (T : EntTables) (attr : Bool) (cs : Str) :
    (namedRef U T attr cs).2.length ≤ cs.length := by
  unfold namedRef
  simp only
  have hd := length_dropWhile_le (fun c => U.isAlpha c || U.isDigit c) cs
  generalize List.dropWhile (fun c => U.isAlpha c || U.isDigit c) cs = after at hd ⊢
  generalize List.takeWhile (fun c => U.isAlpha c || U.isDigit c) cs = run
  generalize (if run.length ≤ T.maxNamed then run else []) = name
  have ht : after.tail.length ≤ cs.length := by simp; omega
  repeat' split
  all_goals first
    | exact Nat.le_refl _
    | exact ht
    | exact hd
    | simp

theorem refAt_length {U : Uni} {T : EntTables} {attr : Bool} {cs o r : Str}
    (h : refAt U T attr cs = some (o, r)) : r.length ≤ cs.length := by
  unfold refAt at h
  split at h
  · have := numericRef_length h; simp; omega
  · simp only [Option.some.injEq] at h
    have := namedRef_length U T attr cs
    rw [h] at this
    exact this

/-- Extra fuel does not matter. -/
theorem decodeF_fuel (U : Uni) (T : EntTables) (attr : Bool) (n m : Nat) (s : Str)
    (hn : s.length < n) (hm : s.length < m) : decodeF U T attr n s = decodeF U T attr m s := by
  induction n generalizing m s with
  | zero => omega
  | succ n ih =>
    cases m with
    | zero => omega
    | succ m =>
      cases s with
      | nil => simp [decodeF]
      | cons c cs =>
        simp only [List.length_cons] at hn hm
        simp only [decodeF]
        split
        · cases hr : refAt U T attr cs with
          | none => rfl
          | some p =>
            obtain ⟨o, r⟩ := p
            have := refAt_length hr
            simp only
            rw [ih m r (by omega) (by omega)]
        · rw [ih m cs (by omega) (by omega)]

theorem decodeEntities_nil (U : Uni) (T : EntTables) (attr : Bool) :
    decodeEntities U T attr [] = some [] := rfl

theorem decodeEntities_cons (U : Uni) (T : EntTables) (attr : Bool) (c : Char) (cs : Str)
    (h : c ≠ '&') : decodeEntities U T attr (c :: cs) = (decodeEntities U T attr cs).map (c :: ·) := by
  simp [decodeEntities, decodeF, h]

theorem decodeEntities_amp (U : Uni) (T : EntTables) (attr : Bool) (cs : Str) :
    decodeEntities U T attr ('&' :: cs) =
      match refAt U T attr cs with
      | none => none
      | some (o, r) => (decodeEntities U T attr r).map (o ++ ·) := by
  simp only [decodeEntities, decodeF, if_true]
  cases hr : refAt U T attr cs with
  | none => rfl
  | some p =>
    obtain ⟨o, r⟩ := p
    have := refAt_length hr
    simp only
    rw [decodeF_fuel U T attr (('&' :: cs).length) (r.length + 1) r (by simp; omega) (by omega)]

theorem decode_append_plain (U : Uni) (T : EntTables) (attr : Bool) (a s : Str) (h : '&' ∉ a) :
    decodeEntities U T attr (a ++ s) = (decodeEntities U T attr s).map (a ++ ·) := by
  induction a with
  | nil => simp
  | cons c a ih =>
    simp only [List.mem_cons, not_or] at h
    rw [List.cons_append, decodeEntities_cons _ _ _ _ _ (fun e => h.1 e.symm), ih h.2]
    simp [Option.map_map, Function.comp_def]

/-- A reference consisting of an ASCII-letter name of the table and a semicolon. -/
theorem decode_named (U : Uni) (T : EntTables) (attr : Bool) (name v s : Str)
    (hne : name ≠ []) (hl : ∀ c ∈ name, isLowerC c = true) (hlen : name.length ≤ T.maxNamed)
    (hv : T.named name = some v) :
    decodeEntities U T attr ('&' :: (name ++ ';' :: s)) = (decodeEntities U T attr s).map (v ++ ·) := by
  rw [decodeEntities_amp]
  have hasc : ∀ c, isLowerC c = true → isAscii c = true := by
    intro c h; rw [isLowerC_iff] at h; rw [isAscii_iff]; omega
  have hrun : ∀ c ∈ name, (U.isAlpha c || U.isDigit c) = true := by
    intro c hc
    rw [U.isAlpha_ascii c (hasc c (hl c hc))]
    simp [isAsciiAlpha, hl c hc]
  have hsemi : (U.isAlpha ';' || U.isDigit ';') = false := by
    rw [U.isAlpha_ascii _ (by decide), U.isDigit_ascii _ (by decide)]; decide
  have htake : (name ++ ';' :: s).takeWhile (fun c => U.isAlpha c || U.isDigit c) = name := by
    rw [List.takeWhile_append_of_pos hrun, List.takeWhile_cons, hsemi]
    simp
  have hdrop : (name ++ ';' :: s).dropWhile (fun c => U.isAlpha c || U.isDigit c) = ';' :: s := by
    rw [List.dropWhile_append_of_pos hrun, List.dropWhile_cons, hsemi]
    simp
  have hhash : ∀ ds, name ++ ';' :: s ≠ '#' :: ds := by
    intro ds e
    cases name with
    | nil => exact hne rfl
    | cons c r =>
      simp at e
      have := hl c (by simp)
      rw [e.1] at this
      exact absurd this (by decide)
  have href : refAt U T attr (name ++ ';' :: s) = some (v, s) := by
    unfold refAt
    split
    · rename_i ds heq; exact absurd heq (hhash ds)
    · simp only [namedRef, htake, hdrop, Option.some.injEq]
      have : name.isEmpty = false := by cases name <;> simp_all
      simp [this, hlen, hv]
  rw [href]

/-- `&#39;` decodes to an apostrophe. -/
theorem decode_apos (U : Uni) (T : EntTables) (attr : Bool) (s : Str) :
    decodeEntities U T attr ('&' :: '#' :: '3' :: '9' :: ';' :: s)
      = (decodeEntities U T attr s).map (['\''] ++ ·) := by
  rw [decodeEntities_amp]
  have h3 : U.isDigit '3' = true := by rw [U.isDigit_ascii _ (by decide)]; decide
  have h9 : U.isDigit '9' = true := by rw [U.isDigit_ascii _ (by decide)]; decide
  have hs : U.isDigit ';' = false := by rw [U.isDigit_ascii _ (by decide)]; decide
  have v3 : U.decVal '3' = some 3 := U.decVal_ascii _ (by decide)
  have v9 : U.decVal '9' = some 9 := U.decVal_ascii _ (by decide)
  have hd : decodeNumeric U false ['3', '9'] = some '\'' := by
    simp [decodeNumeric, lstripP, pyInt, v3, v9, numericReplacements, List.lookup]
  have : refAt U T attr ('#' :: '3' :: '9' :: ';' :: s) = some (['\''], s) := by
    simp [refAt, numericRef, hexMark, numericTail, h3, h9, hs, hd]
  rw [this]

/-- Character-wise form of `_escape_html_chars`. -/
def esc1 (c : Char) : Str :=
  if c = '&' then "&amp;".toList else if c = '<' then "&lt;".toList else if c = '>' then "&gt;".toList else [c]

theorem escapeHtmlChars_eq (t : Str) : escapeHtmlChars t = t.flatMap esc1 := by
  induction t with
  | nil => rfl
  | cons c t ih =>
    unfold escapeHtmlChars at *
    rw [replaceC_cons, replaceC_append, replaceC_append, ih, List.flatMap_cons]
    congr 1
    unfold esc1
    by_cases h1 : c = '&'
    · subst h1; decide
    · by_cases h2 : c = '<'
      · subst h2; decide
      · by_cases h3 : c = '>'
        · subst h3; decide
        · simp [h1, h2, h3]

theorem flatMap_id_of {f : Char → Str} {t : Str} (h : ∀ c ∈ t, f c = [c]) : t.flatMap f = t := by
  induction t with
  | nil => rfl
  | cons c t ih =>
    rw [List.flatMap_cons, h c (by simp), ih (fun d hd => h d (by simp [hd]))]; rfl

theorem escapeText_eq (t : Str) : escapeText t = t.flatMap esc1 := by
  unfold escapeText
  split
  · rename_i h
    simp only [Bool.and_eq_true, Bool.not_eq_true', List.contains_eq_mem, decide_eq_false_iff_not] at h
    rw [flatMap_id_of]
    intro c hc
    unfold esc1
    rw [if_neg, if_neg, if_neg] <;> (rintro rfl; simp_all)
  · exact escapeHtmlChars_eq t

/-- Character-wise form of `_escape_attr_value`. -/
def escA1 (q c : Char) : Str :=
  if c = q then (if q = '"' then "&quot;".toList else "&#39;".toList) else esc1 c

theorem escapeAttr_eq {q : Char} (hq : q = '"' ∨ q = '\'') (v : Str) :
    escapeAttr q v = v.flatMap (escA1 q) := by
  unfold escapeAttr
  split
  · rename_i h
    simp only [Bool.and_eq_true, Bool.not_eq_true', List.contains_eq_mem, decide_eq_false_iff_not] at h
    rw [flatMap_id_of]
    intro c hc
    unfold escA1 esc1
    rw [if_neg, if_neg, if_neg, if_neg] <;> (rintro rfl; simp_all)
  · rename_i h
    clear h
    have key : ∀ (r : Str), (∀ c, replaceC q r (esc1 c) = if c = q then r else esc1 c) →
        replaceC q r (escapeHtmlChars v) = v.flatMap (fun c => if c = q then r else esc1 c) := by
      intro r hr
      rw [escapeHtmlChars_eq]
      induction v with
      | nil => rfl
      | cons c v ih => rw [List.flatMap_cons, replaceC_append, hr, ih, List.flatMap_cons]
    have hesc : ∀ r c, replaceC q r (esc1 c) = if c = q then r else esc1 c := by
      intro r c
      by_cases h : c = q
      · subst h
        rw [if_pos rfl]
        rcases hq with rfl | rfl <;> simp [esc1]
      · rw [if_neg h]
        apply replaceC_of_not_mem
        unfold esc1
        rcases hq with rfl | rfl <;> (split; · decide
                                      split; · decide
                                      split; · decide
                                      simpa using fun e => h e.symm)
    rcases hq with rfl | rfl
    · rw [if_pos rfl, key _ (hesc _)]
      rfl
    · rw [if_neg (by decide), key _ (hesc _)]
      rfl

theorem decode_esc1 (U : Uni) (T : EntTables) (attr : Bool) (c : Char) (s : Str) :
    decodeEntities U T attr (esc1 c ++ s) = (decodeEntities U T attr s).map ([c] ++ ·) := by
  have h4 := T.maxNamed_ge
  unfold esc1
  split
  · rename_i h; subst h
    exact decode_named U T attr "amp".toList _ s (by decide) (by decide) (by simp; omega) T.named_amp
  · split
    · rename_i h; subst h
      exact decode_named U T attr "lt".toList _ s (by decide) (by decide) (by simp; omega) T.named_lt
    · split
      · rename_i h; subst h
        exact decode_named U T attr "gt".toList _ s (by decide) (by decide) (by simp; omega) T.named_gt
      · rename_i h _ _
        exact decode_append_plain U T attr [c] s (by simpa using fun e => h e.symm)

theorem decode_escA1 (U : Uni) (T : EntTables) (attr : Bool) {q : Char} (hq : q = '"' ∨ q = '\'')
    (c : Char) (s : Str) :
    decodeEntities U T attr (escA1 q c ++ s) = (decodeEntities U T attr s).map ([c] ++ ·) := by
  have h4 := T.maxNamed_ge
  unfold escA1
  split
  · rename_i h; subst h
    rcases hq with rfl | rfl
    · rw [if_pos rfl]
      exact decode_named U T attr "quot".toList _ s (by decide) (by decide) (by simp; omega) T.named_quot
    · rw [if_neg (by decide)]
      exact decode_apos U T attr s
  · exact decode_esc1 U T attr c s

/-- Decoding a character-wise encoding that decodes character by character. -/
theorem decode_flatMap (U : Uni) (T : EntTables) (attr : Bool) (f : Char → Str)
    (hf : ∀ c s, decodeEntities U T attr (f c ++ s) = (decodeEntities U T attr s).map ([c] ++ ·))
    (t s : Str) :
    decodeEntities U T attr (t.flatMap f ++ s) = (decodeEntities U T attr s).map (t ++ ·) := by
  induction t with
  | nil => simp
  | cons c t ih =>
    rw [List.flatMap_cons, List.append_assoc, hf, ih]
    simp [Option.map_map, Function.comp_def]

end JH
