import Verif.Spec.Events
import Verif.Props.RawText
import Verif.Props.Serialize

/-! Property C53: the event reader reads serialized trees back as exactly their events. -/
namespace JH
open Spec

/-! ### Searching -/

theorem find?_skip (n a b : Str) (h : ∀ j, j < a.length → startsWith n ((a ++ b).drop j) = false) :
    find? n (a ++ b) = (find? n b).map (· + a.length) := by
  induction a with
  | nil => simp
  | cons c a ih =>
    have h0 := h 0 (by simp)
    simp only [List.cons_append, List.drop_zero] at h0
    simp only [List.cons_append, find?, h0, Bool.false_eq_true, if_false]
    rw [ih (fun j hj => by have := h (j + 1) (by simp; omega); simpa using this)]
    cases find? n b <;> simp; omega

theorem find?_here (n s : Str) : find? n (n ++ s) = some 0 := by
  cases hs : n ++ s with
  | nil => simp_all [find?]
  | cons c r => simp only [find?]; rw [← hs, startsWith_append]; simp

theorem upTo_gt (a rest : Str) (h : '>' ∉ a) : upTo c%">" (a ++ '>' :: rest) = (a, rest) := by
  have hf : find? c%">" (a ++ '>' :: rest) = some a.length := by
    rw [find?_skip, show find? c%">" ('>' :: rest) = some 0 from find?_here c%">" rest]
    · simp
    · intro j hj
      cases hsw : startsWith c%">" ((a ++ '>' :: rest).drop j) with
      | false => rfl
      | true =>
        obtain ⟨t, ht⟩ := startsWith_iff.1 hsw
        have : (a ++ '>' :: rest)[j]? = some '>' := by
          have := congrArg (·[0]?) ht
          simpa using this
        rw [List.getElem?_append_left hj] at this
        exact absurd (List.mem_of_getElem? this) h
  simp [upTo, hf]

theorem asciiStarts_iff {n s : Str} : asciiStarts n s = true ↔ ∃ a t, s = a ++ t ∧ a.all isAscii = true ∧ lowerA a = n := by
  unfold asciiStarts
  simp only [Bool.and_eq_true, decide_eq_true_eq]
  constructor
  · rintro ⟨h1, h2⟩
    exact ⟨s.take n.length, s.drop n.length, by simp, h1, h2⟩
  · rintro ⟨a, t, rfl, h1, h2⟩
    have : a.length = n.length := by rw [← h2]; simp
    rw [List.take_left' this]
    exact ⟨h1, h2⟩

/-! ### Text -/

theorem newlines_escape_head (c : Char) : (esc1 c).head? ≠ some '\n' ∨ c = '\n' := by
  by_cases h : c = '\n'
  · exact .inr h
  · left; unfold esc1
    by_cases h1 : c = '&' <;> by_cases h2 : c = '<' <;> by_cases h3 : c = '>' <;> simp [*]

theorem newlines_cons {c : Char} (h : c ≠ '\r') (s : Str) : newlines (c :: s) = c :: newlines s := by
  cases s <;> simp [newlines, h]

theorem newlines_cons_append (a s : Str) (h : '\r' ∉ a) : newlines (a ++ s) = a ++ newlines s := by
  induction a with
  | nil => rfl
  | cons c a ih =>
    simp only [List.mem_cons, not_or] at h
    rw [List.cons_append, newlines_cons (fun e => h.1 e.symm), ih h.2, List.cons_append]

theorem newlines_cr (s : Str) (h : s.head? ≠ some '\n') : newlines ('\r' :: s) = '\n' :: newlines s := by
  cases s with
  | nil => rfl
  | cons c s =>
    have : c ≠ '\n' := by simpa using h
    simp [newlines, this]

theorem esc1_other {c : Char} (h1 : c ≠ '&') (h2 : c ≠ '<') (h3 : c ≠ '>') : esc1 c = [c] := by simp [esc1, h1, h2, h3]

theorem esc1_noCr {c : Char} (h : c ≠ '\r') : '\r' ∉ esc1 c := by
  unfold esc1
  by_cases h1 : c = '&' <;> by_cases h2 : c = '<' <;> by_cases h3 : c = '>' <;> simp [*, Ne.symm h]

theorem newlines_escapeText (t : Str) : newlines (escapeText t) = escapeText (newlines t) := by
  rw [escapeText_eq, escapeText_eq]
  induction hn : t.length using Nat.strongRecOn generalizing t with
  | _ n ih =>
    cases t with
    | nil => rfl
    | cons c t =>
      by_cases hc : c = '\r'
      · subst hc
        rw [List.flatMap_cons, esc1_other (by decide) (by decide) (by decide)]
        cases t with
        | nil => decide
        | cons d t =>
          by_cases hd : d = '\n'
          · subst hd
            rw [List.flatMap_cons, esc1_other (by decide) (by decide) (by decide)]
            simp only [List.cons_append, List.nil_append, newlines, List.flatMap_cons]
            rw [ih t.length (by simp at hn; omega) t rfl, esc1_other (by decide) (by decide) (by decide)]; rfl
          · have hh : ((d :: t).flatMap esc1).head? ≠ some '\n' := by
              rw [List.flatMap_cons, List.head?_append]
              rcases newlines_escape_head d with h | h
              · cases he : (esc1 d).head? with
                | some x => rw [he] at h; simpa using h
                | none =>
                  exfalso
                  revert he; unfold esc1
                  by_cases h1 : d = '&' <;> by_cases h2 : d = '<' <;> by_cases h3 : d = '>' <;> simp [*]
              · exact absurd h hd
            rw [List.singleton_append, newlines_cr _ hh, newlines_cr _ (by simpa using hd),
              ih (d :: t).length (by simp at hn ⊢; omega) (d :: t) rfl, List.flatMap_cons,
              esc1_other (by decide) (by decide) (by decide)]; rfl
      · rw [List.flatMap_cons, newlines_cons_append _ _ (esc1_noCr hc), newlines_cons hc, List.flatMap_cons,
          ih t.length (by simp at hn; omega) t rfl]

theorem nulFix_escapeText (t : Str) : nulFix (escapeText t) = escapeText (nulFix t) := by
  rw [escapeText_eq, escapeText_eq]
  induction t with
  | nil => rfl
  | cons c t ih =>
    rw [List.flatMap_cons]
    unfold nulFix at *
    rw [List.map_append, ih, List.map_cons, List.flatMap_cons]
    congr 1
    unfold esc1
    by_cases h1 : c = '&' <;> by_cases h2 : c = '<' <;> by_cases h3 : c = '>' <;> by_cases h4 : c = '\x00' <;> simp [*]
    all_goals (try subst h4) <;> simp_all

theorem newlines_nulFix (t : Str) : newlines (nulFix t) = nulFix (newlines t) := by
  induction hn : t.length using Nat.strongRecOn generalizing t with
  | _ n ih =>
    cases t with
    | nil => rfl
    | cons c t =>
      by_cases hc : c = '\r'
      · subst hc
        cases t with
        | nil => decide
        | cons d t =>
          by_cases hd : d = '\n'
          · subst hd
            have := ih t.length (by simp at hn; omega) t rfl
            simp only [nulFix, newlines, List.map_cons] at this ⊢
            simp [newlines, this]
          · have := ih (d :: t).length (by simp at hn ⊢; omega) (d :: t) rfl
            have e : nulFix ('\r' :: d :: t) = '\r' :: nulFix (d :: t) := by simp [nulFix]
            rw [e, newlines_cr, newlines_cr _ (by simpa using hd), this]
            · simp [nulFix]
            · simp only [nulFix, List.map_cons, List.head?_cons]
              by_cases h0 : d = '\x00' <;> simp [h0, hd]
      · have := ih t.length (by simp at hn; omega) t rfl
        have e : nulFix (c :: t) = (if c = '\x00' then '\ufffd' else c) :: nulFix t := rfl
        rw [e, newlines_cons, newlines_cons hc, this]
        · rfl
        · by_cases h0 : c = '\x00' <;> simp [h0, hc]

theorem newlines_ne_nil {p : Str} (h : p ≠ []) : newlines p ≠ [] := by
  cases p with
  | nil => exact absurd rfl h
  | cons c p =>
    by_cases hc : c = '\r'
    · subst hc
      cases p with
      | nil => simp [newlines]
      | cons d p => by_cases hd : d = '\n' <;> simp [newlines, hd]
    · rw [newlines_cons hc]; simp

theorem flush_newlines (p : Str) : flush (newlines p) = if p.isEmpty then [] else [.text (newlines p)] := by
  unfold flush
  cases p with
  | nil => rfl
  | cons c p => simp [newlines_ne_nil]

theorem mergeText_nil (p : Str) : mergeText p [] = flush (newlines p) := by rw [flush_newlines]; rfl

theorem mergeText_cons (p : Str) (e : Event) (es : List Event) (h : ∀ t, e ≠ .text t) :
    mergeText p (e :: es) = flush (newlines p) ++ e :: mergeText [] es := by
  rw [flush_newlines]
  cases e <;> simp_all [mergeText]

theorem bufText_plain (U : Uni) (T : EntTables) (p : Str) : bufText U T false false (escapeText p) = some (newlines p) := by
  simp only [bufText, newlines_escapeText, Bool.false_eq_true, if_false]
  exact C01_text_roundtrip U T _

theorem bufText_rcdata (U : Uni) (T : EntTables) (p : Str) :
    bufText U T false true (escapeText p) = some (newlines (nulFix p)) := by
  simp only [bufText, newlines_escapeText, nulFix_escapeText, Bool.false_eq_true, if_false, if_true, newlines_nulFix]
  exact C01_text_roundtrip U T _

theorem escapeText_append (a b : Str) : escapeText (a ++ b) = escapeText a ++ escapeText b := by
  simp [escapeText_eq]

theorem splitAt1_none {q : Char} {a : Str} (h : q ∉ a) : splitAt1 q a = none := by
  induction a with
  | nil => rfl
  | cons c a ih =>
    simp only [List.mem_cons, not_or] at h
    simp [splitAt1, Ne.symm h.1, ih h.2]

/-! ### Steps of the reader -/

/-- No open element is in foreign content. -/
def AllHtml (st : List ONode) : Prop := ∀ n ∈ st, n.ns = .html

/-- From any point of HTML content, after any text `p`, the reader consumes `a` as the events `out`. -/
def Step (U : Uni) (T : EntTables) (K : StreamTables) (a : Str) (out : List Event) : Prop :=
  ∀ n st p rest, AllHtml st → ∃ st', AllHtml st' ∧
    scanF U T K (n + 1) st [] (escapeText p ++ (a ++ rest)) = (scanF U T K n st' [] rest).pre (flush (newlines p) ++ out)

/-- Markup made of texts and steps, with its events. -/
inductive Run (U : Uni) (T : EntTables) (K : StreamTables) : Str → List Event → Prop
  | nil : Run U T K [] []
  | text (t : Str) {s : Str} {es : List Event} : Run U T K s es → Run U T K (escapeText t ++ s) (.text t :: es)
  | step {a s : Str} {es1 out es : List Event} : a ≠ [] → Step U T K a out →
      (∀ p es, mergeText p (es1 ++ es) = flush (newlines p) ++ out ++ mergeText [] es) →
      Run U T K s es → Run U T K (a ++ s) (es1 ++ es)

theorem Run.append {U : Uni} {T : EntTables} {K : StreamTables} {s s' : Str} {es es' : List Event}
    (h : Run U T K s es) (h' : Run U T K s' es') : Run U T K (s ++ s') (es ++ es') := by
  induction h with
  | nil => exact h'
  | text t _ ih => rw [List.append_assoc]; exact .text t ih
  | step hne hs hm _ ih => rw [List.append_assoc, List.append_assoc]; exact .step hne hs hm ih

theorem Scan.pre_ok (es r : List Event) : Scan.pre es (.ok r) = .ok (es ++ r) := rfl

theorem Run.scan {U : Uni} {T : EntTables} {K : StreamTables} {s : Str} {es : List Event} (h : Run U T K s es) :
    ∀ n st p, s.length < n → AllHtml st → scanF U T K n st [] (escapeText p ++ s) = .ok (mergeText p es) := by
  induction h with
  | nil =>
    intro n st p hn _
    obtain ⟨n, rfl⟩ : ∃ m, n = m + 1 := ⟨n - 1, by simp at hn; omega⟩
    rw [List.append_nil, mergeText_nil]
    simp [scanF, splitAt1_none (C01_text_no_markup p).1, bufText_plain]
  | text t _ ih =>
    intro n st p hn hst
    rw [← List.append_assoc, ← escapeText_append, mergeText]
    exact ih n st (p ++ t) (by simp at hn; omega) hst
  | step hne hs hm _ ih =>
    rename_i a _ _ _ _ _
    intro n st p hn hst
    have : 1 ≤ a.length := by cases a with
      | nil => exact absurd rfl hne
      | cons _ _ => simp
    obtain ⟨n, rfl⟩ : ∃ m, n = m + 1 := ⟨n - 1, by omega⟩
    obtain ⟨st', hst', h⟩ := hs n st p _ hst
    have e := ih n st' [] (by simp at hn; omega) hst'
    rw [show escapeText [] = [] from by simp [escapeText_eq], List.nil_append] at e
    rw [h, e, Scan.pre_ok, hm]

/-- A step whose markup starts with `<`: the text before it is read first. -/
theorem scan_text (U : Uni) (T : EntTables) (K : StreamTables) (n : Nat) (st : List ONode) (p post : Str) :
    splitAt1 '<' (escapeText p ++ '<' :: post) = some (escapeText p, post) ∧
    bufText U T false false (escapeText p) = some (newlines p) :=
  ⟨splitAt1_append (C01_text_no_markup p).1, bufText_plain U T p⟩

theorem inForeign_false {st : List ONode} (h : AllHtml st) : inForeign st = false := by
  cases st with
  | nil => rfl
  | cons n st => simp [inForeign, h n (by simp)]

theorem nulFix_eq_map_nul (s : Str) : nulFix s = s.map nul := rfl

/-! #### Comments -/

theorem dashOk_no_dd (s X : Str) (h : DashOk s) : ∀ j, j < s.length → ∀ Y, startsWith ('-' :: '-' :: Y) ((s ++ X).drop j) = false := by
  induction s with
  | nil => simp
  | cons c s ih =>
    intro j hj Y
    cases j with
    | zero =>
      by_cases hc : c = '-'
      · obtain ⟨h1, h2⟩ := h.1 hc
        cases s with
        | nil => exact absurd rfl h1
        | cons d s =>
          have : d ≠ '-' := by simpa using h2
          simp [startsWith, List.isPrefixOf, Ne.symm this]
      · simp [startsWith, List.isPrefixOf, Ne.symm hc]
    | succ j => simpa using ih h.2 j (by simpa using hj) Y

theorem parseComment_serialized (d rest : Str) :
    parseComment (serializeComment d ++ (c%"-->" ++ rest)) = (nulFix (serializeComment d), rest) := by
  obtain ⟨h1, h2, h3⟩ := serializeComment_ok d
  generalize serializeComment d = s at *
  have g1 : find? c%"-->" (s ++ (c%"-->" ++ rest)) = some s.length := by
    rw [find?_skip _ _ _ (fun j hj => dashOk_no_dd s _ h1 j hj _), find?_here]; simp
  have g2 : ∀ b, find? c%"--!>" (s ++ (c%"-->" ++ rest)) = some b → s.length < b := by
    intro b hb
    rw [find?_skip _ _ _ (fun j hj => dashOk_no_dd s _ h1 j hj _)] at hb
    have : startsWith c%"--!>" (c%"-->" ++ rest) = false := by simp [startsWith, List.isPrefixOf]
    have e : find? c%"--!>" (c%"-->" ++ rest) = (find? c%"--!>" (c%"->" ++ rest)).map (· + 1) := by
      show (if startsWith c%"--!>" (c%"-->" ++ rest) = true then some 0 else _) = _
      rw [this]; rfl
    rw [e] at hb
    cases hx : find? c%"--!>" (c%"->" ++ rest) with
    | none => rw [hx] at hb; simp at hb
    | some x => rw [hx] at hb; simp at hb; omega
  have s1 : startsWith c%">" (s ++ (c%"-->" ++ rest)) = false := by
    cases s with
    | nil => simp [startsWith, List.isPrefixOf]
    | cons c s => simpa [startsWith, List.isPrefixOf] using h2
  have s2 : startsWith c%"->" (s ++ (c%"-->" ++ rest)) = false := by
    cases s with
    | nil => simp [startsWith, List.isPrefixOf]
    | cons c s =>
      cases s with
      | nil =>
        have : c ≠ '-' := fun hc => absurd rfl (h1.1 hc).1
        simp [startsWith, List.isPrefixOf, Ne.symm this]
      | cons d s => simpa [startsWith, List.isPrefixOf] using h3
  unfold parseComment
  rw [s1, s2, g1]
  simp only [Bool.false_eq_true, if_false]
  have ht : (s ++ (c%"-->" ++ rest)).take s.length = s := by simp
  have hd : (s ++ (c%"-->" ++ rest)).drop (s.length + 3) = rest := by
    rw [← List.drop_drop]; simp
  cases hb : find? c%"--!>" (s ++ (c%"-->" ++ rest)) with
  | none => simp only [ht, hd]
  | some b =>
    have := g2 b hb
    simp only [if_neg (show ¬ b ≤ s.length by omega), ht, hd]

theorem step_comment (U : Uni) (T : EntTables) (K : StreamTables) (d : Str) :
    Step U T K (c%"<!--" ++ serializeComment d ++ c%"-->") [.comment ((serializeComment d).map nul)] := by
  intro n st p rest hst
  refine ⟨st, hst, ?_⟩
  have e : escapeText p ++ (c%"<!--" ++ serializeComment d ++ c%"-->" ++ rest)
      = escapeText p ++ '<' :: ('!' :: (c%"--" ++ (serializeComment d ++ (c%"-->" ++ rest)))) := by simp
  rw [e]
  obtain ⟨h1, h2⟩ := scan_text U T K n st p ('!' :: (c%"--" ++ (serializeComment d ++ (c%"-->" ++ rest))))
  have h3 : parseDecl K (inForeign st) (c%"--" ++ (serializeComment d ++ (c%"-->" ++ rest)))
      = (.event (.comment (nulFix (serializeComment d))), rest) := by
    unfold parseDecl
    rw [startsWith_append]
    simp only [if_true]
    rw [show (c%"--" ++ (serializeComment d ++ (c%"-->" ++ rest))).drop 2 = serializeComment d ++ (c%"-->" ++ rest) from rfl,
      parseComment_serialized]
  simp only [scanF, h1, h2, h3, if_true, List.nil_append]
  rfl

theorem step_pi (U : Uni) (T : EntTables) (K : StreamTables) (d : Str) :
    Step U T K (c%"<?" ++ serializePi d ++ c%"?>") [.comment ((c%"?" ++ serializePi d ++ c%"?").map nul)] := by
  intro n st p rest hst
  refine ⟨st, hst, ?_⟩
  have e : escapeText p ++ (c%"<?" ++ serializePi d ++ c%"?>" ++ rest)
      = escapeText p ++ '<' :: ('?' :: (serializePi d ++ c%"?") ++ '>' :: rest) := by simp
  rw [e]
  obtain ⟨h1, h2⟩ := scan_text U T K n st p ('?' :: (serializePi d ++ c%"?") ++ '>' :: rest)
  have h3 := upTo_gt ('?' :: (serializePi d ++ c%"?")) rest (by simp [serializePi_noGt])
  simp only [List.cons_append] at h1 h3 ⊢
  simp only [scanF, h1, h2, h3, List.nil_append]
  simp [nulFix_eq_map_nul]

theorem doctype_shape (name : Str) (pub sys : Option Str) :
    serializeDoctype name pub sys = c%"<!DOCTYPE" ++ (doctypeBody name pub sys ++ ['>']) ∧ '>' ∉ doctypeBody name pub sys := by
  have hname : '>' ∉ safeDoctypeName name := by
    unfold safeDoctypeName
    split
    · rename_i h
      obtain ⟨c, cs, h1, h2, h3⟩ := validTagName_chars h
      have : ∀ x ∈ dropNL name, x ≠ '>' := by
        intro x hx; rw [h1] at hx
        simp only [List.mem_cons] at hx
        rcases hx with rfl | hx
        · exact (tagNameChar_dSpace (isAsciiAlpha_tagNameChar h2)).2
        · exact (tagNameChar_dSpace (h3 x hx)).2
      intro hm
      rcases dropNL_cases name with h | h
      · rw [h] at hm; exact this _ hm rfl
      · rw [h] at hm; simp only [List.mem_append, List.mem_singleton] at hm
        rcases hm with hm | hm
        · exact this _ hm rfl
        · exact absurd hm (by decide)
    · simp
  have hids : '>' ∉ doctypeIds pub sys := by
    cases pub <;> cases sys <;> simp [doctypeIds, (escapeAttr_noGt _).1]
  have hb : doctypeBody name pub sys =
      (if (safeDoctypeName name).isEmpty then [] else ' ' :: safeDoctypeName name) ++ doctypeIds pub sys := by
    unfold doctypeBody serializeDoctype
    rw [← List.append_assoc (if (safeDoctypeName name).isEmpty = true then [] else ' ' :: safeDoctypeName name)]
    generalize (if (safeDoctypeName name).isEmpty = true then [] else ' ' :: safeDoctypeName name) ++ doctypeIds pub sys = b
    simp
  refine ⟨?_, ?_⟩
  · rw [hb, serializeDoctype, List.append_assoc]
  · rw [hb, List.mem_append, not_or]
    refine ⟨?_, hids⟩
    split
    · simp
    · simp [hname]

theorem step_doctype (U : Uni) (T : EntTables) (K : StreamTables) (name : Str) (pub sys : Option Str) :
    Step U T K (serializeDoctype name pub sys) [.doctype (K.doctype (doctypeBody name pub sys)).1
      (K.doctype (doctypeBody name pub sys)).2.1 (K.doctype (doctypeBody name pub sys)).2.2] := by
  intro n st p rest hst
  refine ⟨st, hst, ?_⟩
  obtain ⟨hs, hg⟩ := doctype_shape name pub sys
  have e : escapeText p ++ (serializeDoctype name pub sys ++ rest)
      = escapeText p ++ '<' :: ('!' :: (c%"DOCTYPE" ++ (doctypeBody name pub sys ++ '>' :: rest))) := by rw [hs]; simp
  rw [e]
  obtain ⟨h1, h2⟩ := scan_text U T K n st p ('!' :: (c%"DOCTYPE" ++ (doctypeBody name pub sys ++ '>' :: rest)))
  have h3 : parseDecl K (inForeign st) (c%"DOCTYPE" ++ (doctypeBody name pub sys ++ '>' :: rest))
      = (.event (.doctype (K.doctype (doctypeBody name pub sys)).1
      (K.doctype (doctypeBody name pub sys)).2.1 (K.doctype (doctypeBody name pub sys)).2.2), rest) := by
    unfold parseDecl
    have a1 : startsWith c%"--" (c%"DOCTYPE" ++ (doctypeBody name pub sys ++ '>' :: rest)) = false := by
      simp [startsWith, List.isPrefixOf]
    have a2 : asciiStarts c%"doctype" (c%"DOCTYPE" ++ (doctypeBody name pub sys ++ '>' :: rest)) = true := by
      rw [asciiStarts_iff]
      exact ⟨c%"DOCTYPE", _, rfl, by decide, by decide⟩
    rw [a1, a2]
    simp only [Bool.false_eq_true, if_false, if_true]
    rw [show (c%"DOCTYPE" ++ (doctypeBody name pub sys ++ '>' :: rest)).drop 7 = doctypeBody name pub sys ++ '>' :: rest from rfl,
      upTo_gt _ _ hg]
  simp only [scanF, h1, h2, h3, if_true, List.nil_append]

/-! #### Tags -/

theorem nsForStart_html (U : Uni) (K : StreamTables) (name : Str) (attrs : List (Str × Str)) (st : List ONode)
    (hst : AllHtml st) : nsForStart U K name attrs st = (nsFromHtml name, st) := by
  unfold nsForStart
  cases st with
  | nil => rfl
  | cons p st =>
    have hp := hst p (by simp)
    simp only [hp]
    by_cases h1 : p.htmlIntegration = true
    · simp [h1]
    · simp only [h1, Bool.false_eq_true, if_false]
      by_cases h2 : (K.mathIP .html p.name && !(decide (name = c%"mglyph") || decide (name = c%"malignmark"))) = true
      · rw [if_pos h2]
      · rw [if_neg h2]; simp

theorem popForEnd_html (U : Uni) (name : Str) (st : List ONode) (hst : AllHtml st) : AllHtml (popForEnd U name st) := by
  unfold popForEnd
  cases st with
  | nil => simp [AllHtml]
  | cons t st =>
    have := hst t (by simp)
    simp only [this, ne_eq, not_true_eq_false, decide_false, Bool.false_and, Bool.false_eq_true, if_false]
    refine ite_pred AllHtml ?_ ?_
    · intro n hn; exact fun hm => hst _ (List.mem_of_mem_drop hm)
    · intro _ n hn; exact hst n (by simp [hn])

theorem name_facts {name : Str} (hv : validTagName name = true) (hd : dropNL name = name) :
    ∃ c cs, name = c :: cs ∧ isAsciiAlpha c = true ∧ ∀ x ∈ name, tagNameChar x = true := by
  obtain ⟨c, cs, h1, h2, h3⟩ := validTagName_chars hv
  rw [hd] at h1
  refine ⟨c, cs, h1, h2, ?_⟩
  intro x hx; rw [h1, List.mem_cons] at hx
  rcases hx with rfl | hx
  · exact isAsciiAlpha_tagNameChar h2
  · exact h3 x hx

theorem tagNameChar_boundary {c : Char} (h : tagNameChar c = true) : isTagBoundary c = false := by
  simp only [tagNameChar, Bool.not_eq_true', Bool.or_eq_false_iff, decide_eq_false_iff_not] at h
  simp [isTagBoundary, isHtmlSpace, h]

theorem step_end (U : Uni) (T : EntTables) (K : StreamTables) (name : Str) (hv : validTagName name = true)
    (hd : dropNL name = name) : Step U T K (c%"</" ++ name ++ c%">") [.end (U.lower name)] := by
  intro n st p rest hst
  refine ⟨popForEnd U (U.lower name) st, popForEnd_html U _ st hst, ?_⟩
  have e : escapeText p ++ (c%"</" ++ name ++ c%">" ++ rest) = escapeText p ++ '<' :: ('/' :: (name ++ '>' :: rest)) := by simp
  rw [e]
  obtain ⟨h1, h2⟩ := scan_text U T K n st p ('/' :: (name ++ '>' :: rest))
  obtain ⟨c, cs, hn, hc, hall⟩ := name_facts hv hd
  have h3 : parseEndTag U (name ++ '>' :: rest) = some (U.lower name, rest) := by
    have ht := takeWhile_append_stop (p := fun c => !isTagBoundary c) (a := name) (b := '>' :: rest)
      (fun x hx => by simp [tagNameChar_boundary (hall x hx)]) (by intro x hx; simp at hx; subst hx; decide)
    simp only [parseEndTag, ht.1, ht.2, findTagEnd]
    simp
  rw [hn] at h1 h3 ⊢
  rw [List.cons_append] at h1 h3 ⊢
  have hneg : ¬ ((!isAsciiAlpha c) = true) := by simp [hc]
  simp only [scanF, h1, h2, h3, List.nil_append, if_neg (show ¬ ('/' = '!') by decide), if_true, if_neg hneg]

theorem nsFromHtml_html {name : Str} (h1 : name ≠ c%"svg") (h2 : name ≠ c%"math") : nsFromHtml name = .html := by
  simp [nsFromHtml, h1, h2]

theorem mkONode_html (U : Uni) (K : StreamTables) (name : Str) (attrs : List (Str × Str)) : (mkONode U K name .html attrs).ns = .html := rfl

theorem startTag_shape {U : Uni} {o : TagOpts} {name tag : Str} {attrs : List (Str × Option Str)}
    (h : serializeStartTag U o name attrs = some tag) : validTagName name = true ∧ ∃ b, tag = '<' :: (name ++ b) := by
  unfold serializeStartTag at h
  cases hv : validTagName name with
  | false => simp [hv] at h
  | true =>
    simp only [hv, Bool.not_true, Bool.false_eq_true, if_false] at h
    split at h
    · simp at h
    · simp only [Option.some.injEq] at h
      exact ⟨rfl, _, by rw [← h]; simp [List.append_assoc]; rfl⟩

/-- Reading a start tag, whatever follows it. -/
theorem scan_start (U : Uni) (T : EntTables) (K : StreamTables) (o : TagOpts) (name : Str) (attrs : List (Str × Option Str))
    (tag : Str) (h : serializeStartTag U o name attrs = some tag) (hd : dropNL name = name) (n : Nat) (st : List ONode)
    (p rest : Str) :
    scanF U T K (n + 1) st [] (escapeText p ++ (tag ++ rest)) =
      match afterStart U T K (U.lower name) (firstWins (attrs.map fun a => (nulFix (U.lower (dropNL a.1)), readValue U o name a.1 a.2)))
        (o.trailingSolidus && o.isVoid) st rest with
      | none => .error
      | some (es, st', rest', buf') => (scanF U T K n st' buf' rest').pre (flush (newlines p) ++
          .start (U.lower name) (firstWins (attrs.map fun a => (nulFix (U.lower (dropNL a.1)), readValue U o name a.1 a.2))) :: es) := by
  obtain ⟨hv, b, hb⟩ := startTag_shape h
  obtain ⟨body, hbody, hp⟩ := C03_start_tag_roundtrip U T o name attrs tag rest h
  obtain ⟨c, cs, hn, hc, -⟩ := name_facts hv hd
  have hbody' : ∃ r, body = c :: r := by
    rw [hb] at hbody; simp only [List.cons.injEq, true_and] at hbody
    exact ⟨cs ++ b, by rw [← hbody]; conv => lhs; rw [hn]
                       rfl⟩
  obtain ⟨r, hr⟩ := hbody'
  have e : escapeText p ++ (tag ++ rest) = escapeText p ++ '<' :: (c :: (r ++ rest)) := by rw [hbody, hr]; simp
  rw [hr, List.cons_append, hd] at hp
  rw [e]
  obtain ⟨h1, h2⟩ := scan_text U T K n st p (c :: (r ++ rest))
  have c1 : c ≠ '!' := by rintro rfl; exact absurd hc (by decide)
  have c2 : c ≠ '/' := by rintro rfl; exact absurd hc (by decide)
  have c3 : c ≠ '?' := by rintro rfl; exact absurd hc (by decide)
  have hneg : ¬ ((!isAsciiAlpha c) = true) := by simp [hc]
  simp only [scanF, h1, h2, hp, if_neg c1, if_neg c2, if_neg c3, if_neg hneg, List.nil_append]
  rfl

theorem step_start (U : Uni) (T : EntTables) (K : StreamTables) (o : TagOpts) (ho : (o.trailingSolidus && o.isVoid) = false)
    (name : Str) (attrs : List (Str × Option Str))
    (tag : Str) (h : serializeStartTag U o name attrs = some tag) (hd : dropNL name = name)
    (hx : U.lower name ∉ [c%"svg", c%"math", c%"plaintext", c%"noscript"])
    (hr : rawtextTags.contains (U.lower name) = false) (hc : rcdataTags.contains (U.lower name) = false) :
    Step U T K tag [.start (U.lower name) (firstWins (attrs.map fun a => (nulFix (U.lower (dropNL a.1)), readValue U o name a.1 a.2)))] := by
  intro n st p rest hst
  simp only [List.mem_cons, List.not_mem_nil, or_false, not_or] at hx
  obtain ⟨x1, x2, x3, x4⟩ := hx
  rw [scan_start U T K o name attrs tag h hd]
  simp only [ho]
  generalize firstWins (attrs.map fun a => (nulFix (U.lower (dropNL a.1)), readValue U o name a.1 a.2)) = as
  refine ⟨mkONode U K (U.lower name) .html as :: st, ?_, ?_⟩
  · intro m hm; simp only [List.mem_cons] at hm
    rcases hm with rfl | hm
    · rfl
    · exact hst m hm
  · have : afterStart U T K (U.lower name) as false st rest = some ([], mkONode U K (U.lower name) .html as :: st, rest, []) := by
      unfold afterStart
      simp only [nsForStart_html U K _ _ st hst, nsFromHtml_html x1 x2, if_true, if_neg x3, hr, hc, Bool.or_self, Bool.false_eq_true,
        if_false, Bool.false_and]
    rw [this]

/-! #### Raw text and RCDATA elements -/

theorem asciiFind_skip (n a b : Str) (h : ∀ j, j < a.length → asciiStarts n ((a ++ b).drop j) = false) :
    asciiFind n (a ++ b) = (asciiFind n b).map (· + a.length) := by
  induction a with
  | nil => simp
  | cons c a ih =>
    have h0 := h 0 (by simp)
    simp only [List.cons_append, List.drop_zero] at h0
    simp only [List.cons_append, asciiFind, h0, Bool.false_eq_true, if_false]
    rw [ih (fun j hj => by have := h (j + 1) (by simp; omega); simpa using this)]
    cases asciiFind n b <;> simp; omega

theorem asciiFind_here {n s : Str} (h : asciiStarts n s = true) : asciiFind n s = some 0 := by
  cases s with
  | nil =>
    obtain ⟨a, t, h1, -, h3⟩ := asciiStarts_iff.1 h
    have : a = [] := by simp at h1; exact h1.1
    subst this; subst h3; rfl
  | cons c s => simp [asciiFind, h]

theorem lowerA_eq_map_low (s : Str) : lowerA s = s.map low := by
  unfold lowerA
  congr 1
  funext c
  exact (low_eq_lowerC c).symm

theorem mem_of_lowerA {c : Char} {a : Str} (hc : isLowerC c = false) (h : c ∈ lowerA a) : c ∈ a := by
  unfold lowerA at h
  obtain ⟨d, hd, he⟩ := List.mem_map.1 h
  rwa [← lowerC_eq_nonletter hc he]

/-- A match of the end-tag needle at the start of a text. -/
theorem asciiStarts_needle {tag s : Str} (htA : tag.all isAscii = true) : asciiStarts (c%"</" ++ tag) s = true ↔ NeedleHere tag s := by
  rw [asciiStarts_iff]
  constructor
  · rintro ⟨a, t, rfl, h1, h2⟩
    match a, h2 with
    | x :: y :: a, h2 =>
      simp only [lowerA_cons, List.cons_append, List.nil_append, List.cons.injEq] at h2
      have hx := lowerC_eq_nonletter (by decide) h2.1
      have hy := lowerC_eq_nonletter (by decide) h2.2.1
      subst hx; subst hy
      exact ⟨a, t, rfl, by rw [← lowerA_eq_map_low]; exact h2.2.2⟩
    | [x], h2 => simp at h2
    | [], h2 => simp at h2
  · rintro ⟨name, post, rfl, h⟩
    refine ⟨'<' :: '/' :: name, post, rfl, ?_, ?_⟩
    · rw [← lowerA_eq_map_low] at h
      have : ∀ x ∈ name, isAscii x = true := by
        intro x hx
        rw [← isAscii_lowerC]
        rw [List.all_eq_true] at htA
        exact htA _ (by rw [← h]; exact List.mem_map_of_mem hx)
      simp only [List.all_cons, Bool.and_eq_true, List.all_eq_true]
      exact ⟨by decide, by decide, this⟩
    · rw [← lowerA_eq_map_low] at h
      simp only [lowerA_cons, h, List.cons_append, List.nil_append]
      rfl

/-- The reader finds the end tag of a raw text element exactly after text containing no end tag. -/
theorem findRawEndF_text (tag name rest : Str) (htA : tag.all isAscii = true) (hname : name.map low = tag)
    (htn : '<' ∉ tag) :
    ∀ (n : Nat) (X : Str) (off : Nat), X.length < n → (∀ j, ¬ EndHere tag (X.drop j)) →
      findRawEndF (c%"</" ++ tag) n off (X ++ (c%"</" ++ (name ++ '>' :: rest)))
        = some (off + X.length, off + X.length + (c%"</" ++ tag).length + 1) := by
  intro n
  induction n with
  | zero => intro X off h; omega
  | succ n ih =>
    intro X off hn hX
    have hlen : name.length = tag.length := by rw [← hname]; simp
    have hnl : '<' ∉ name := by
      intro hm
      apply htn
      rw [← hname]
      exact List.mem_map.2 ⟨'<', hm, by decide⟩
    have hhere : asciiStarts (c%"</" ++ tag) (c%"</" ++ (name ++ '>' :: rest)) = true :=
      (asciiStarts_needle htA).2 ⟨name, '>' :: rest, rfl, hname⟩
    have hat : asciiFind (c%"</" ++ tag) (c%"</" ++ (name ++ '>' :: rest)) = some 0 := by
      show (if asciiStarts (c%"</" ++ tag) (c%"</" ++ (name ++ '>' :: rest)) = true then some 0 else _) = _
      rw [if_pos hhere]
    by_cases hex : ∃ j, j < X.length ∧ asciiStarts (c%"</" ++ tag) ((X ++ (c%"</" ++ (name ++ '>' :: rest))).drop j) = true
    · -- a needle inside the text, not followed by a boundary
      obtain ⟨j, ⟨hj, hs⟩, hmin⟩ : ∃ j, (j < X.length ∧ asciiStarts (c%"</" ++ tag) ((X ++ (c%"</" ++ (name ++ '>' :: rest))).drop j) = true) ∧
          ∀ i, i < j → ¬ (i < X.length ∧ asciiStarts (c%"</" ++ tag) ((X ++ (c%"</" ++ (name ++ '>' :: rest))).drop i) = true) := by
        obtain ⟨j, hj⟩ := hex
        induction j using Nat.strongRecOn with
        | _ j ihj =>
          by_cases hlt : ∃ i, i < j ∧ (i < X.length ∧ asciiStarts (c%"</" ++ tag) ((X ++ (c%"</" ++ (name ++ '>' :: rest))).drop i) = true)
          · obtain ⟨i, hi, hp⟩ := hlt
            exact ihj i hi hp
          · exact ⟨j, hj, fun i hi hp => hlt ⟨i, hi, hp⟩⟩
      have hX' : X = X.take j ++ X.drop j := by simp
      obtain ⟨A, B, hAB, hA⟩ : ∃ A B, X = A ++ B ∧ A.length = j := ⟨X.take j, X.drop j, by simp, by simp; omega⟩
      subst hAB
      rw [List.append_assoc, List.drop_left' hA] at hs
      rw [asciiStarts_needle htA] at hs
      obtain ⟨nm, post, h1, h2⟩ := hs
      have hnmlen : nm.length = tag.length := by rw [← h2]; simp
      have hnm : '<' ∉ nm := by
        intro hm
        apply htn
        rw [← h2]
        exact List.mem_map.2 ⟨'<', hm, by decide⟩
      have hBne : B ≠ [] := by rintro rfl; simp at hj; omega
      -- the needle lies inside B
      obtain ⟨C, hB, hCpost⟩ : ∃ C, B = ('<' :: '/' :: nm) ++ C ∧ post = C ++ (c%"</" ++ (name ++ '>' :: rest)) := by
        have hle : ('<' :: '/' :: nm).length ≤ B.length := by
          apply Classical.byContradiction
          intro hlt
          have hlt : B.length < ('<' :: '/' :: nm).length := by omega
          have g := congrArg (·[B.length]?) h1
          simp only [List.getElem?_append_right (Nat.le_refl _), Nat.sub_self] at g
          rw [List.getElem?_append_left hlt] at g
          have hm : '<' ∈ ('/' :: nm) := by
            have hb0 : 0 < B.length := List.length_pos_iff.2 hBne
            obtain ⟨m, hm⟩ : ∃ m, B.length = m + 1 := ⟨B.length - 1, by omega⟩
            rw [hm, List.getElem?_cons_succ] at g
            simp only [List.cons_append, List.getElem?_cons_zero] at g
            exact List.mem_of_getElem? g.symm
          simp only [List.mem_cons] at hm
          rcases hm with hm | hm
          · exact absurd hm (by decide)
          · exact hnm hm
        refine ⟨B.drop ('<' :: '/' :: nm).length, ?_, ?_⟩
        · have g := congrArg (List.take ('<' :: '/' :: nm).length) h1
          rw [List.take_append_of_le_length hle, List.take_left] at g
          conv => lhs; rw [← List.take_append_drop ('<' :: '/' :: nm).length B, g]
        · have g := congrArg (List.drop ('<' :: '/' :: nm).length) h1
          rw [List.drop_append_of_le_length hle, List.drop_left] at g
          exact g.symm
      have hAl : ∀ i, i < A.length → asciiStarts (c%"</" ++ tag) ((A ++ (B ++ (c%"</" ++ (name ++ '>' :: rest)))).drop i) = false := by
        intro i hi
        have := hmin i (by omega)
        rw [List.append_assoc] at this
        simp only [not_and, Bool.not_eq_true] at this
        exact this (by simp; omega)
      have hk : asciiFind (c%"</" ++ tag) (A ++ B ++ (c%"</" ++ (name ++ '>' :: rest))) = some A.length := by
        rw [List.append_assoc, asciiFind_skip _ _ _ hAl]
        have : asciiStarts (c%"</" ++ tag) (B ++ (c%"</" ++ (name ++ '>' :: rest))) = true := by
          rw [asciiStarts_needle htA]; exact ⟨nm, post, h1, h2⟩
        rw [asciiFind_here this]; simp
      have hdrop : (A ++ B ++ (c%"</" ++ (name ++ '>' :: rest))).drop (A.length + (c%"</" ++ tag).length) = C ++ (c%"</" ++ (name ++ '>' :: rest)) := by
        rw [List.append_assoc, ← List.drop_drop, List.drop_left, hB, List.append_assoc]
        have : (c%"</" ++ tag).length = ('<' :: '/' :: nm).length := by simp [hnmlen]
        rw [this, List.drop_left]
      have hend := hX A.length
      rw [List.drop_left] at hend
      -- the character after the needle
      have hC : ∃ c C', C = c :: C' ∧ isTagBoundary c = false := by
        cases C with
        | nil => exact absurd ⟨nm, [], by rw [hB], h2, .inl rfl⟩ hend
        | cons c C' =>
          refine ⟨c, C', rfl, ?_⟩
          cases hb : isTagBoundary c with
          | false => rfl
          | true => exact absurd ⟨nm, c :: C', by rw [hB], h2, .inr ⟨c, C', rfl, (boundary_iff c).1 hb⟩⟩ hend
      obtain ⟨c, C', hC1, hC2⟩ := hC
      have hrec := ih C (off + A.length + (c%"</" ++ tag).length) (by
        simp only [List.length_append, hB, List.length_cons] at hn; omega) (by
        intro i hi
        have := hX (A.length + ('<' :: '/' :: nm).length + i)
        rw [← List.drop_drop, ← List.drop_drop, List.drop_left, hB, List.drop_left] at this
        exact this hi)
      simp only [findRawEndF, hk, hdrop]
      rw [hC1] at hrec ⊢
      simp only [List.cons_append, List.nil_append, hC2, Bool.not_false, if_true] at hrec ⊢
      rw [hrec]
      rw [hB, hC1]
      simp only [List.length_append, List.length_cons, List.length_nil, hnmlen]
      congr 1
      ext <;> simp <;> omega
    · -- no needle inside the text
      have hno : ∀ j, j < X.length → asciiStarts (c%"</" ++ tag) ((X ++ (c%"</" ++ (name ++ '>' :: rest))).drop j) = false := by
        intro j hj
        cases hb : asciiStarts (c%"</" ++ tag) ((X ++ (c%"</" ++ (name ++ '>' :: rest))).drop j) with
        | false => rfl
        | true => exact absurd ⟨j, hj, hb⟩ hex
      have hk : asciiFind (c%"</" ++ tag) (X ++ (c%"</" ++ (name ++ '>' :: rest))) = some X.length := by
        rw [asciiFind_skip _ _ _ hno, hat]; simp
      have hdrop : (X ++ (c%"</" ++ (name ++ '>' :: rest))).drop (X.length + (c%"</" ++ tag).length) = '>' :: rest := by
        rw [← List.drop_drop, List.drop_left]
        have : (c%"</" ++ tag).length = (c%"</" ++ name).length := by simp [hlen]
        rw [this, ← List.append_assoc, List.drop_left]
      simp only [findRawEndF, hk, hdrop]
      have hb : ¬ ((!isTagBoundary '>') = true) := by decide
      rw [if_neg hb]
      simp [findTagEnd]


theorem findClose_text (tag name X rest : Str) (htA : tag.all isAscii = true) (hname : name.map low = tag) (htn : '<' ∉ tag)
    (hX : ∀ j, ¬ EndHere tag (X.drop j)) (hs : tag = c%"script" → ∀ a b, X ≠ a ++ c%"<!--" ++ b) :
    ∃ k, findClose tag (X ++ (c%"</" ++ (name ++ '>' :: rest))) = some (X.length, k) ∧
      (X ++ (c%"</" ++ (name ++ '>' :: rest))).drop k = rest := by
  have hlen : name.length = tag.length := by rw [← hname]; simp
  refine ⟨X.length + (c%"</" ++ tag).length + 1, ?_, ?_⟩
  · unfold findClose findRawEnd
    have hf := findRawEndF_text tag name rest htA hname htn ((X ++ (c%"</" ++ (name ++ '>' :: rest))).length + 1) X 0
      (by simp; omega) hX
    rw [Nat.zero_add] at hf
    by_cases hsc : tag = c%"script"
    · rw [if_pos hsc]
      have hno := isIn_false_iff.2 (hs hsc)
      have hno' : find? c%"<!--" X = none := by
        unfold isIn at hno
        cases hx : find? c%"<!--" X with
        | none => rfl
        | some k => rw [hx] at hno; simp at hno
      rw [findScriptEndF]
      rw [hsc] at hf
      rw [List.drop_zero, show c%"</script" = c%"</" ++ c%"script" from rfl, hf]
      rw [hsc]
      simp only [Bool.not_false, if_true, List.drop_zero, List.take_left]
      rw [hno']
    · rw [if_neg hsc]; exact hf
  · rw [Nat.add_assoc, ← List.drop_drop, List.drop_left]
    have e : (c%"</" ++ tag).length + 1 = (c%"</" ++ name ++ c%">").length := by simp [hlen]
    rw [e, show c%"</" ++ (name ++ '>' :: rest) = (c%"</" ++ name ++ c%">") ++ rest by simp, List.drop_left]

/-- A raw text or RCDATA element is read as one step. -/
theorem step_raw (U : Uni) (T : EntTables) (K : StreamTables) (o : TagOpts) (ho : (o.trailingSolidus && o.isVoid) = false)
    (name : Str) (attrs : List (Str × Option Str)) (tag X t : Str) (h : serializeStartTag U o name attrs = some tag)
    (hd : dropNL name = name) (hasc : name.all isAscii = true)
    (hr : (rawtextTags.contains (U.lower name) || rcdataTags.contains (U.lower name)) = true)
    (hX : ∀ j, ¬ EndHere (U.lower name) (X.drop j)) (hs : U.lower name = c%"script" → ∀ a b, X ≠ a ++ c%"<!--" ++ b)
    (hb : bufText U T (!rcdataTags.contains (U.lower name)) true X = some (newlines (nulFix t))) :
    Step U T K (tag ++ (X ++ (c%"</" ++ (name ++ c%">"))))
      ([.start (U.lower name) (firstWins (attrs.map fun a => (nulFix (U.lower (dropNL a.1)), readValue U o name a.1 a.2)))] ++
        flush (newlines (nulFix t)) ++ [.end (U.lower name)]) := by
  intro n st p rest hst
  have hlow : U.lower name = name.map low := by rw [U.lower_ascii _ hasc, lowerA_eq_map_low]
  have hfacts : ∀ m ∈ rawtextTags ++ rcdataTags, m ≠ c%"svg" ∧ m ≠ c%"math" ∧ m ≠ c%"plaintext" ∧ m.all isAscii = true ∧ '<' ∉ m := by decide
  have hmem : U.lower name ∈ rawtextTags ++ rcdataTags := by
    rw [List.mem_append]
    rw [Bool.or_eq_true] at hr
    rcases hr with h | h
    · exact .inl (by simpa using h)
    · exact .inr (by simpa using h)
  obtain ⟨x1, x2, x3, x4, x5⟩ := hfacts _ hmem
  rw [show tag ++ (X ++ (c%"</" ++ (name ++ c%">"))) ++ rest = tag ++ (X ++ (c%"</" ++ (name ++ '>' :: rest))) by simp]
  rw [scan_start U T K o name attrs tag h hd]
  simp only [ho]
  generalize firstWins (attrs.map fun a => (nulFix (U.lower (dropNL a.1)), readValue U o name a.1 a.2)) = as
  obtain ⟨k, hk1, hk2⟩ := findClose_text (U.lower name) name X rest x4 hlow.symm x5 hX hs
  refine ⟨popForEnd U (U.lower name) (mkONode U K (U.lower name) .html as :: st), ?_, ?_⟩
  · apply popForEnd_html
    intro m hm; simp only [List.mem_cons] at hm
    rcases hm with rfl | hm
    · rfl
    · exact hst m hm
  · have : afterStart U T K (U.lower name) as false st (X ++ (c%"</" ++ (name ++ '>' :: rest))) =
        some (flush (newlines (nulFix t)) ++ [.end (U.lower name)],
          popForEnd U (U.lower name) (mkONode U K (U.lower name) .html as :: st), rest, []) := by
      unfold afterStart
      simp only [nsForStart_html U K _ _ st hst, nsFromHtml_html x1 x2, if_true, if_neg x3, hr, Bool.false_eq_true,
        if_false, Bool.false_and, hk1, hk2]
      rw [List.take_left, hb]; rfl
    rw [this]
    simp

theorem merge_raw (e1 e2 : Event) (h1 : ∀ t, e1 ≠ .text t) (h2 : ∀ t, e2 ≠ .text t) (t p : Str) (es : List Event) :
    mergeText p ([e1, .text t, e2] ++ es) = flush (newlines p) ++ ([e1] ++ flush (newlines t) ++ [e2]) ++ mergeText [] es := by
  rw [List.cons_append, mergeText_cons _ _ _ h1, List.cons_append, mergeText, List.cons_append, mergeText_cons _ _ _ h2]
  simp

theorem merge_one (e : Event) (h : ∀ t, e ≠ .text t) (p : Str) (es : List Event) :
    mergeText p ([e] ++ es) = flush (newlines p) ++ [e] ++ mergeText [] es := by
  rw [List.cons_append, mergeText_cons _ _ _ h]; simp

theorem Run.one {U : Uni} {T : EntTables} {K : StreamTables} {a : Str} {e : Event} (hne : a ≠ []) (he : ∀ t, e ≠ .text t)
    (h : Step U T K a [e]) : Run U T K a [e] := by
  have := Run.step (es1 := [e]) hne h (merge_one e he) .nil
  simpa using this

/-- The text of children with this context is escaped. -/
def CtxOk (U : Uni) (ctx : Option Str) : Prop := ∀ p, ctx = some p → literalTextElements.contains (U.lower p) = false

theorem serializeTextFor_ok {U : Uni} {ctx : Option Str} (h : CtxOk U ctx) (d : Str) : serializeTextFor U ctx d = escapeText d := by
  unfold serializeTextFor
  cases ctx with
  | none => rfl
  | some p => simp only [h p rfl, Bool.false_eq_true, if_false]

theorem markupL_texts {U : Uni} {ctx : Option Str} (h : CtxOk U ctx) (kids : List Node) (hk : ∀ k ∈ kids, ∃ d, k = .text d) :
    markupL U ctx kids = some (escapeText (textsL kids).flatten) := by
  induction kids with
  | nil => simp [markupL, textsL, escapeText_eq]
  | cons k kids ih =>
    obtain ⟨d, rfl⟩ := hk k (by simp)
    rw [markupL, ih (fun x hx => hk x (by simp [hx])), markup, serializeTextFor_ok h, textsL, texts]
    simp [escapeText_append]

theorem endHere_mem {tag X : Str} {j : Nat} (h : EndHere tag (X.drop j)) : '<' ∈ X := by
  obtain ⟨name, post, h1, -⟩ := h
  apply List.mem_of_mem_drop (i := j)
  rw [h1]; simp

theorem literal_special : ∀ m ∈ literalTextElements, m ∈ rawtextTags ∨ m = c%"plaintext" := by decide
theorem raw_facts : ∀ m ∈ rawtextTags, m ≠ c%"noscript" → literalTextElements.contains m = true ∧ m ≠ c%"plaintext" ∧ '&' ∉ m ∧
    m.all isAscii = true ∧ rcdataTags.contains m = false := by decide
theorem void_facts : ∀ m ∈ voidElements, lowerA m = m ∧ m ∉ rawtextTags ∧ m ∉ rcdataTags := by decide

mutual
theorem run_node (U : Uni) (T : EntTables) (K : StreamTables) (ctx : Option Str) (hctx : CtxOk U ctx) :
    ∀ (n : Node) (s : Str), markup U ctx n = some s → Readable U n → Run U T K s (events U K n)
  | .text d, s, hm, _ => by
    rw [markup, serializeTextFor_ok hctx, Option.some.injEq] at hm
    rw [← hm, events]
    have := Run.text (U := U) (T := T) (K := K) d .nil
    simpa using this
  | .comment d, s, hm, _ => by
    rw [markup, Option.some.injEq] at hm
    rw [← hm, events]
    exact Run.one (by simp) (by simp) (step_comment U T K d)
  | .pi d, s, hm, _ => by
    rw [markup, Option.some.injEq] at hm
    rw [← hm, events]
    have := step_pi U T K d
    rw [C06_pi_data] at this ⊢
    exact Run.one (by simp) (by simp) this
  | .doctype name pub sys, s, hm, _ => by
    rw [markup, Option.some.injEq] at hm
    rw [← hm, events]
    exact Run.one (by simp [serializeDoctype]) (by simp) (step_doctype U T K name pub sys)
  | .doc kids, s, hm, hr => by
    rw [markup] at hm
    rw [Readable] at hr
    rw [events]
    exact run_list U T K none (by intro p hp; simp at hp) kids s hm hr
  | .elem name ns attrs kids tpl content, s, hm, hr => by
    rw [markup] at hm
    rw [Readable] at hr
    rw [events]
    obtain ⟨hd, hx, hr⟩ := hr
    cases ht : serializeStartTag U { htmlNs := isHtmlNs ns } name attrs with
    | none => rw [ht] at hm; simp at hm
    | some tag =>
      rw [ht] at hm
      simp only at hm
      obtain ⟨hv, b, htag⟩ := startTag_shape ht
      have htne : tag ≠ [] := by rw [htag]; simp
      by_cases hraw : rawtextTags.contains (U.lower name) = true
      · -- raw text element
        rw [if_pos hraw] at hr ⊢
        obtain ⟨hasc, hns, hk, hscr⟩ := hr
        have hlow : U.lower name = lowerA name := U.lower_ascii _ hasc
        have hnosc : U.lower name ≠ c%"noscript" := by simp only [List.mem_cons, not_or] at hx; exact hx.2.2.2.1
        obtain ⟨f1, f2, f3, f4, f5⟩ := raw_facts _ (by simpa using hraw) hnosc
        have hvoid : voidElements.contains name = false := by
          cases hvd : voidElements.contains name with
          | false => rfl
          | true =>
            have := void_facts name (by simpa using hvd)
            rw [hlow, this.1] at hraw
            exact absurd (by simpa using hraw) this.2.1
        have htpl : ¬ (name = c%"template" ∧ tpl = true ∧ (ns = none ∨ ns = some c%"html")) := by
          rintro ⟨rfl, -⟩
          rw [hlow] at hraw
          exact absurd hraw (by decide)
        rw [hvoid] at hm ⊢
        simp only [Bool.false_eq_true, if_false, if_neg htpl, if_pos hns] at hm ⊢
        have hX : markupL U (some name) kids = some (rawText U name (textsL kids).flatten) := by
          rcases hk with rfl | ⟨d, rfl⟩
          · rw [markupL, textsL]
            unfold rawText
            rw [List.flatten_nil, C09_unchanged U _ _ f4]
            rw [hasEndTag_iff]
            rintro ⟨j, hj⟩
            have := endHere_mem hj
            simp at this
          · rw [markupL, markup, markupL, textsL, texts, textsL]
            unfold serializeTextFor rawText
            simp only [f1, if_true, if_neg f2]
            simp
        rw [hX] at hm
        simp only [Option.map_some, Option.some.injEq] at hm
        have hno := C08_no_end_tag U (U.lower name) (textsL kids).flatten f4 f3
        rw [hasEndTag_iff] at hno
        have hst := step_raw U T K { htmlNs := isHtmlNs ns } rfl name attrs tag (rawText U name (textsL kids).flatten)
          (rawText U name (textsL kids).flatten) ht hd hasc (by simp only [hraw, Bool.true_or]) (fun j hj => hno ⟨j, hj⟩) hscr
          (by simp only [f5, Bool.not_false, bufText, if_true, newlines_nulFix])
        have hrun := Run.step (es1 := [.start (U.lower name) (firstWins (attrs.map fun a =>
            (nulFix (U.lower (dropNL a.1)), readValue U { htmlNs := isHtmlNs ns } name a.1 a.2))),
            .text ((rawText U name (textsL kids).flatten).map nul), .end (U.lower name)]) (by simp [htne]) hst
          (fun p es => by rw [merge_raw _ _ (by simp) (by simp), ← nulFix_eq_map_nul]) .nil
        rw [← hm]
        simpa using hrun
      · rw [if_neg hraw] at hr ⊢
        have hlit : literalTextElements.contains (U.lower name) = false := by
          cases hl : literalTextElements.contains (U.lower name) with
          | false => rfl
          | true =>
            rcases literal_special _ (by simpa using hl) with h | h
            · exact absurd (by simpa using h) hraw
            · exact absurd (by simp [h]) hx
        have hctx' : CtxOk U (if ns = some c%"html" then some name else none) := by
          intro p hp
          split at hp
          · simp only [Option.some.injEq] at hp; rw [← hp]; exact hlit
          · simp at hp
        by_cases hrc : rcdataTags.contains (U.lower name) = true
        · -- RCDATA element
          rw [if_pos hrc] at hr ⊢
          obtain ⟨hasc, hk⟩ := hr
          have hlow : U.lower name = lowerA name := U.lower_ascii _ hasc
          have hvoid : voidElements.contains name = false := by
            cases hvd : voidElements.contains name with
            | false => rfl
            | true =>
              have := void_facts name (by simpa using hvd)
              rw [hlow, this.1] at hrc
              exact absurd (by simpa using hrc) this.2.2
          have htpl : ¬ (name = c%"template" ∧ tpl = true ∧ (ns = none ∨ ns = some c%"html")) := by
            rintro ⟨rfl, -⟩
            rw [hlow] at hrc
            exact absurd hrc (by decide)
          rw [hvoid] at hm ⊢
          simp only [Bool.false_eq_true, if_false, if_neg htpl] at hm ⊢
          rw [markupL_texts hctx' kids hk] at hm
          simp only [Option.map_some, Option.some.injEq] at hm
          have hst := step_raw U T K { htmlNs := isHtmlNs ns } rfl name attrs tag (escapeText (textsL kids).flatten)
            (textsL kids).flatten ht hd hasc (by simp only [hrc, Bool.or_true])
            (fun j hj => absurd (endHere_mem hj) (C01_text_no_markup _).1)
            (fun hs => by rw [hs] at hrc; exact absurd hrc (by decide))
            (by rw [hrc]; exact bufText_rcdata U T _)
          have hrun := Run.step (es1 := [.start (U.lower name) (firstWins (attrs.map fun a =>
              (nulFix (U.lower (dropNL a.1)), readValue U { htmlNs := isHtmlNs ns } name a.1 a.2))),
              .text ((textsL kids).flatten.map nul), .end (U.lower name)]) (by simp [htne]) hst
            (fun p es => by rw [merge_raw _ _ (by simp) (by simp), ← nulFix_eq_map_nul]) .nil
          rw [← hm]
          simpa using hrun
        · rw [if_neg hrc] at hr ⊢
          have hst := step_start U T K { htmlNs := isHtmlNs ns } rfl name attrs tag ht hd hx (by simpa using hraw) (by simpa using hrc)
          have h1 := Run.one htne (by simp) hst
          by_cases hvd : voidElements.contains name = true
          · rw [if_pos hvd] at hm ⊢
            simp only [Option.some.injEq] at hm
            rw [← hm]
            exact h1
          · rw [if_neg hvd] at hm hr ⊢
            have h3 := Run.one (by simp) (by simp) (step_end U T K name hv hd)
            by_cases htpl : name = c%"template" ∧ tpl = true ∧ (ns = none ∨ ns = some c%"html")
            · rw [if_pos htpl] at hm hr ⊢
              cases hc : markupL U none content with
              | none => rw [hc] at hm; simp at hm
              | some inner =>
                rw [hc] at hm
                simp only [Option.map_some, Option.some.injEq] at hm
                have h2 := run_list U T K none (by intro p hp; simp at hp) content inner hc hr
                rw [← hm]
                exact (h1.append h2).append h3
            · rw [if_neg htpl] at hm hr ⊢
              cases hc : markupL U (if ns = some c%"html" then some name else none) kids with
              | none => rw [hc] at hm; simp at hm
              | some inner =>
                rw [hc] at hm
                simp only [Option.map_some, Option.some.injEq] at hm
                have h2 := run_list U T K _ hctx' kids inner hc hr
                rw [← hm]
                exact (h1.append h2).append h3
theorem run_list (U : Uni) (T : EntTables) (K : StreamTables) (ctx : Option Str) (hctx : CtxOk U ctx) :
    ∀ (ns : List Node) (s : Str), markupL U ctx ns = some s → ReadableL U ns → Run U T K s (eventsL U K ns)
  | [], s, hm, _ => by
    rw [markupL, Option.some.injEq] at hm
    rw [← hm, eventsL]
    exact .nil
  | n :: ns, s, hm, hr => by
    rw [markupL] at hm
    rw [ReadableL] at hr
    rw [eventsL]
    cases ha : markup U ctx n with
    | none => rw [ha] at hm; simp at hm
    | some a =>
      cases hb : markupL U ctx ns with
      | none => rw [ha, hb] at hm; simp at hm
      | some b =>
        rw [ha, hb] at hm
        simp only [Option.some.injEq] at hm
        rw [← hm]
        exact (run_node U T K ctx hctx n a ha hr.1).append (run_list U T K ctx hctx ns b hb hr.2)
end

/-- C53: for every readable tree that serializes, the event reader applied to the serialized text produces exactly the
tree's events in document order: no text, attribute value, comment or identifier introduces any other markup. -/
theorem C53_stream_of_serialized (U : Uni) (T : EntTables) (K : StreamTables) (n : Node) (html : Str)
    (hs : toHtmlCompact U none n = .ok html) (hr : Readable U n) :
    stream U T K html = .ok (mergeText [] (events U K n)) := by
  rw [C12_document_order] at hs
  cases hm : markup U none n with
  | none => rw [hm] at hs; simp at hs
  | some s =>
    rw [hm] at hs
    simp only [Scan.ok.injEq] at hs
    subst hs
    have := (run_node U T K none (by intro p hp; simp at hp) n s hm hr).scan (s.length + 1) [] [] (by omega) (by simp [AllHtml])
    rw [show escapeText [] = [] from by simp [escapeText_eq], List.nil_append] at this
    exact this

/-- C53: the same for a list of siblings (the children of a document or fragment). -/
theorem C53_stream_of_forest (U : Uni) (T : EntTables) (K : StreamTables) (kids : List Node) (html : Str)
    (hs : toHtmlCompact U none (.doc kids) = .ok html) (hr : ∀ k ∈ kids, Readable U k) :
    stream U T K html = .ok (mergeText [] (kids.flatMap (events U K))) := by
  have h1 : ∀ l : List Node, (∀ k ∈ l, Readable U k) → ReadableL U l := by
    intro l
    induction l with
    | nil => intro _; rw [ReadableL]; trivial
    | cons k l ih => intro h; rw [ReadableL]; exact ⟨h k (by simp), ih (fun x hx => h x (by simp [hx]))⟩
  have h2 : ∀ l : List Node, eventsL U K l = l.flatMap (events U K) := by
    intro l
    induction l with
    | nil => rfl
    | cons k l ih => rw [eventsL, ih]; simp
  have := C53_stream_of_serialized U T K (.doc kids) html hs (by rw [Readable]; exact h1 kids hr)
  rwa [events, h2] at this

/-- A table assignment for examples. -/
def StreamTables.sample : StreamTables where
  breakout := fun _ => false
  htmlIP := fun _ _ => false
  mathIP := fun _ _ => false
  svgAdjust := id
  doctype := fun s => (some s, none, none)

/-- The example tree: attribute and text full of markup, a comment trying to close, a script with an end tag. -/
def exampleTree : Node := .doc [
  .elem c%"p" (some c%"html") [(c%"title", some c%"\"><b>")] [.text c%"<i>&amp;\r\n", .comment c%"--><u>", .elem c%"br" none [] [] false []] false [],
  .elem c%"script" (some c%"html") [] [.text c%"'</script>'"] false [],
  .elem c%"title" (some c%"html") [] [.text c%"a</title>", .text c%"b"] false []]

example : toHtmlCompact Uni.sample none exampleTree = .ok
  c%"<p title='\"&gt;&lt;b&gt;'>&lt;i&gt;&amp;amp;\r\n<!--- -><u>--><br></p><script>'&lt;/script>'</script><title>a&lt;/title&gt;b</title>" := by
  decide

set_option maxRecDepth 4000 in
example : stream Uni.sample EntTables.sample StreamTables.sample
  c%"<p title='\"&gt;&lt;b&gt;'>&lt;i&gt;&amp;amp;\r\n<!--- -><u>--><br></p><script>'&lt;/script>'</script><title>a&lt;/title&gt;b</title>"
  = .ok [.start c%"p" [(c%"title", c%"\"><b>")], .text c%"<i>&amp;\n", .comment c%"- -><u>", .start c%"br" [], .end c%"p",
     .start c%"script" [], .text c%"'&lt;/script>'", .end c%"script",
     .start c%"title" [], .text c%"a</title>b", .end c%"title"] := by decide

example : Readable Uni.sample exampleTree := by
  unfold exampleTree
  have h : Uni.sample.lower = lowerA := rfl
  simp only [Readable, ReadableL, h]
  refine ⟨⟨by decide, by decide, ?_⟩, ⟨by decide, by decide, ?_⟩, ⟨by decide, by decide, ?_⟩, trivial⟩
  · rw [if_neg (by decide), if_neg (by decide), if_neg (by decide), if_neg (by decide)]
    refine ⟨trivial, trivial, ⟨by decide, by decide, ?_⟩, trivial⟩
    rw [if_neg (by decide), if_neg (by decide), if_pos (by decide)]; trivial
  · rw [if_pos (by decide)]
    exact ⟨by decide, trivial, .inr ⟨_, rfl⟩, fun _ => isIn_false_iff.1 (by decide)⟩
  · rw [if_neg (by decide), if_pos (by decide)]
    refine ⟨by decide, ?_⟩
    intro k hk
    simp only [List.mem_cons, List.not_mem_nil, or_false] at hk
    rcases hk with rfl | rfl <;> exact ⟨_, rfl⟩

/-- C08 fails for a raw text element with several text children: each is neutralized on its own, so an end tag split over
two text nodes (which DOM edits can produce) closes the element and the rest becomes markup. -/
theorem C08_split_text_fails : ¬ ∀ (U : Uni) (a b html : Str),
    toHtmlCompact U none (.elem c%"script" (some c%"html") [] [.text a, .text b] false []) = .ok html →
    ∃ t, html = c%"<script>" ++ t ++ c%"</script>" ∧ ¬ HasEndTag c%"script" t := by
  intro h
  obtain ⟨t, h1, h2⟩ := h Uni.sample c%"</scr" c%"ipt><b>" c%"<script></script><b></script>" (by decide)
  apply h2
  have : t = c%"</script><b>" := by
    have := congrArg (List.drop 8) h1
    have e := congrArg (List.take (t.length)) this
    rw [List.append_assoc, show List.drop 8 (c%"<script>" ++ (t ++ c%"</script>")) = t ++ c%"</script>" from rfl, List.take_left] at e
    have hl := congrArg List.length this
    rw [List.append_assoc, show List.drop 8 (c%"<script>" ++ (t ++ c%"</script>")) = t ++ c%"</script>" from rfl] at hl
    have : t.length = 12 := by simp at hl; omega
    rw [this] at e
    exact e.symm
  rw [this]
  exact ⟨[], c%"script", c%"><b>", by decide, by decide, .inr ⟨'>', c%"<b>", rfl, by decide⟩⟩

/-- C53 does not extend to scripts containing `<!--`: after `<!--<script>` the script's own end tag does not close it, so
what follows the script element is swallowed (as in a browser). -/
theorem C53_script_comment_fails : ¬ ∀ (U : Uni) (T : EntTables) (K : StreamTables) (d html : Str),
    toHtmlCompact U none (.doc [.elem c%"script" (some c%"html") [] [.text d] false [], .elem c%"b" (some c%"html") [] [] false []]) = .ok html →
    ∃ es, stream U T K html = .ok (es ++ [.start c%"b" [], .end c%"b"]) := by
  intro h
  obtain ⟨es, h1⟩ := h Uni.sample EntTables.sample StreamTables.sample c%"<!--<script>"
    c%"<script><!--<script></script><b></b>" (by decide)
  have h2 : stream Uni.sample EntTables.sample StreamTables.sample c%"<script><!--<script></script><b></b>"
      = .ok [.start c%"script" [], .text c%"<!--<script></script><b></b>"] := by decide
  rw [h2] at h1
  simp only [Scan.ok.injEq] at h1
  have := congrArg List.getLast? h1
  simp at this

end JH
