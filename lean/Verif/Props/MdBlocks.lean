import Verif.Props.Markdown
import Verif.Spec.MdBlock
/-! C110: text does not begin a Markdown block. -/
namespace JH
open Spec

/-! ### The line of a text -/

/-- The escaped text `s`, at the start of a line. -/
def mdLineOf (U : Uni) (s : Str) : Str :=
  match mdLineStart U s with
  | some (r, rest) => r ++ collapseTail false rest
  | none => collapseTail false s

/-- Escaped text begins with white space only if the text does. -/
theorem mdEscapeC_head (c : Char) (hc : isHtmlSpace c = false) : ∃ x y, mdEscapeC c = x :: y ∧ isHtmlSpace x = false ∧ ∀ z ∈ y, isHtmlSpace z = false := by
  rcases mdEscapeC_cases c with ⟨-, e⟩ | ⟨-, e⟩ | ⟨-, e⟩ | ⟨-, -, -, e⟩
  · exact ⟨_, _, e, by decide, by decide⟩
  · exact ⟨_, _, e, by decide, by decide⟩
  · exact ⟨_, _, e, by decide, by simpa using hc⟩
  · exact ⟨_, _, e, hc, by simp⟩

/-- Collapsing and escaping commute. -/
theorem collapse_escape (d : Str) : ∀ p, collapseTail p (mdEscapeText d) = mdEscapeText (collapseTail p d) := by
  induction d with
  | nil => intro p; rfl
  | cons c t ih =>
    intro p
    rw [mdEscapeText_cons]
    cases hc : isHtmlSpace c with
    | true =>
      rw [isHtmlSpace_special c hc, List.singleton_append]
      simp only [collapseTail, hc, if_true]
      exact ih true
    | false =>
      obtain ⟨x, y, e, hx, hy⟩ := mdEscapeC_head c hc
      have h1 : collapseTail p (mdEscapeC c ++ mdEscapeText t) = (if p then [' '] else []) ++ (mdEscapeC c ++ collapseTail false (mdEscapeText t)) := by
        rw [e, List.cons_append]
        simp only [collapseTail, hx, Bool.false_eq_true, if_false]
        rw [collapseTail_append y _ hy, List.cons_append]
      rw [h1, ih false]
      simp only [collapseTail, hc, Bool.false_eq_true, if_false]
      cases p with
      | false => rfl
      | true => rfl

/-- The Markdown of a text node. -/
theorem textF_line (U : Uni) (n : Nat) (d : Str) (hn : (mdEscapeText d).length ≤ n) (b : MdB) (hb : b.buf = []) (hnl : b.nl = 0) :
    (MdB.textF U n b (mdEscapeText d)).out = mdLineOf U (mdEscapeText (d.dropWhile isHtmlSpace)) := by
  induction d generalizing n b with
  | nil => cases n <;> simp [MdB.textF, mdEscapeText, MdB.out, hb, mdLineOf, mdLineStart, collapseTail]
  | cons c t ih =>
    rw [mdEscapeText_cons] at hn ⊢
    cases hc : isHtmlSpace c with
    | true =>
      rw [isHtmlSpace_special c hc, List.singleton_append] at hn ⊢
      rw [List.dropWhile_cons_of_pos hc]
      cases n with
      | zero => simp at hn
      | succ n =>
        rw [MdB.textF, if_pos hc]
        exact ih n (by simpa using hn) { b with lead := b.lead || b.buf.isEmpty, pend := true } hb hnl
    | false =>
      rw [List.dropWhile_cons_of_neg (by simp [hc]), mdEscapeText_cons]
      have hf : b.flushText.buf = [] ∧ b.flushText.nl = 0 ∧ b.flushText.pend = false := by
        unfold MdB.flushText
        cases hp : b.pend <;> simp [hb, hnl, hp]
      obtain ⟨hf1, hf2, hf3⟩ := hf
      obtain ⟨x, y, e, hx, hy⟩ := mdEscapeC_head c hc
      cases n with
      | zero => rw [e] at hn; simp at hn
      | succ n =>
        have hstep : MdB.textF U (n + 1) b (mdEscapeC c ++ mdEscapeText t) =
            match mdLineStart U (mdEscapeC c ++ mdEscapeText t) with
            | some (r, rest) => MdB.textF U n { b.flushText with buf := [r], nl := 0 } rest
            | none => MdB.textF U n { b.flushText with buf := [[x]], nl := 0 } (y ++ mdEscapeText t) := by
          rw [e, List.cons_append, MdB.textF]
          simp only [hx, hf1]
          rfl
        rw [hstep, mdLineOf]
        cases hl : mdLineStart U (mdEscapeC c ++ mdEscapeText t) with
        | none =>
          dsimp only
          rw [textF_busy U n _ (by rw [e] at hn; simpa using hn) _ ⟨by simp, rfl, by simp [MdB.endsBlank, isBlank_of x hx]⟩]
          rw [e]
          simp [MdB.out, collapseTail, hx, hf3]
        | some p =>
          obtain ⟨r, rest⟩ := p
          dsimp only
          obtain ⟨w, d', h1, h2, h3, h4, h5, h6⟩ := mdLineStart_escape U c t hc r rest (by rw [mdEscapeText_cons]; exact hl)
          have hlen : rest.length ≤ n := by
            rw [h2]
            cases w with
            | nil =>
              have := h6 []
              cases r with
              | nil => exact absurd rfl h3
              | cons u v => exact absurd (by simpa [mdUnescape] using this) (mdUnescape_ne u v)
            | cons u w =>
              simp only [List.cons_append, List.cons.injEq] at h1
              have : (mdEscapeText t).length = (mdEscapeText w).length + (mdEscapeText d').length := by
                rw [h1.2]; simp [mdEscapeText]
              rw [e] at hn
              simp at hn
              omega
          have hbusy : Busy { b.flushText with buf := [r], nl := 0 } := by
            refine ⟨by simp, rfl, ?_⟩
            unfold MdB.endsBlank
            simp only [List.head?_cons, Option.bind_some]
            cases hg : r.getLast? with
            | none => rfl
            | some z => simpa using isBlank_of z (h4 z hg)
          rw [textF_busy U n _ hlen _ hbusy]
          simp [MdB.out, hf3]

/-- A builder that has written something goes on to do so. -/
theorem textF_stays (U : Uni) (n : Nat) (s : Str) (b : MdB) (hb : Busy b) : Busy (MdB.textF U n b s) := by
  induction n generalizing s b with
  | zero => exact hb
  | succ n ih =>
    cases s with
    | nil => exact hb
    | cons c t =>
      unfold MdB.textF
      by_cases hc : isHtmlSpace c = true
      · rw [if_pos hc]
        exact ih t { b with lead := b.lead || b.buf.isEmpty, pend := true } ⟨hb.ne, hb.nl, hb.noblank⟩
      · have hc' : isHtmlSpace c = false := by simpa using hc
        have hblank := isBlank_of c hc'
        have hf : b.flushText.buf ≠ [] ∧ b.flushText.nl = 0 := by
          unfold MdB.flushText
          split
          · dsimp only; split <;> simp [hb.nl, hb.ne]
          · exact ⟨hb.ne, hb.nl⟩
        rw [if_neg hc]
        dsimp only
        rw [if_neg (by simp [hf.1, hf.2])]
        exact ih t { b.flushText with buf := [c] :: b.flushText.buf, nl := 0 } ⟨by simp, rfl, by simp [MdB.endsBlank, hblank]⟩

/-- White space is pending after the text. -/
def endsSpc : Bool → Str → Bool
  | p, [] => p
  | _, c :: t => endsSpc (isHtmlSpace c) t

theorem endsSpc_append (a b : Str) : ∀ p, endsSpc p (a ++ b) = endsSpc (endsSpc p a) b := by
  induction a with
  | nil => intro p; rfl
  | cons c a ih => intro p; exact ih _

theorem endsSpc_non (a : Str) (h : ∀ y, a.getLast? = some y → isHtmlSpace y = false) (hne : a ≠ []) : ∀ p, endsSpc p a = false := by
  intro p
  rcases List.eq_nil_or_concat a with rfl | ⟨i, x, rfl⟩
  · exact absurd rfl hne
  · rw [List.concat_eq_append] at *
    rw [endsSpc_append]
    simpa [endsSpc] using h x (by simp)

theorem endsSpc_escape (d : Str) : ∀ p, endsSpc p (mdEscapeText d) = endsSpc p d := by
  induction d with
  | nil => intro p; rfl
  | cons c t ih =>
    intro p
    rw [mdEscapeText_cons, endsSpc_append, ih]
    cases hc : isHtmlSpace c with
    | true => rw [isHtmlSpace_special c hc]; rfl
    | false =>
      obtain ⟨x, y, e, hx, hy⟩ := mdEscapeC_head c hc
      rw [endsSpc_non _ (by
        intro z hz
        have := List.mem_of_getLast? hz
        rw [e] at this
        rcases List.mem_cons.1 this with rfl | this
        · exact hx
        · exact hy z this) (by rw [e]; simp) p]
      rw [endsSpc, hc]

theorem textF_pend (U : Uni) (n : Nat) (s : Str) (hn : s.length ≤ n) (b : MdB) (hb : Busy b) : (MdB.textF U n b s).pend = endsSpc b.pend s := by
  induction n generalizing s b with
  | zero =>
    have : s = [] := by simpa using hn
    subst this; rfl
  | succ n ih =>
    cases s with
    | nil => rfl
    | cons c t =>
      have ht : t.length ≤ n := by simpa using hn
      unfold MdB.textF
      by_cases hc : isHtmlSpace c = true
      · rw [if_pos hc, endsSpc, hc]
        exact ih t ht { b with lead := b.lead || b.buf.isEmpty, pend := true } ⟨hb.ne, hb.nl, hb.noblank⟩
      · have hc' : isHtmlSpace c = false := by simpa using hc
        have hblank := isBlank_of c hc'
        have hf : b.flushText.buf ≠ [] ∧ b.flushText.nl = 0 ∧ b.flushText.pend = false := by
          unfold MdB.flushText
          cases hp : b.pend with
          | true => rw [if_pos rfl]; dsimp only; refine ⟨?_, hb.nl, rfl⟩; split <;> simp [hb.ne]
          | false => rw [if_neg (by simp)]; exact ⟨hb.ne, hb.nl, hp⟩
        rw [if_neg hc, endsSpc, hc']
        dsimp only
        rw [if_neg (by simp [hf.1, hf.2.1])]
        have := ih t ht { b.flushText with buf := [c] :: b.flushText.buf, nl := 0 } ⟨by simp, rfl, by simp [MdB.endsBlank, hblank]⟩
        dsimp only at this ⊢
        rw [hf.2.2] at this ⊢
        exact this

theorem endsSpc_all (y : Str) (hy : ∀ z ∈ y, isHtmlSpace z = false) : endsSpc false y = false := by
  induction y with
  | nil => rfl
  | cons a y ih => rw [endsSpc, hy a (by simp)]; exact ih fun z hz => hy z (by simp [hz])

/-- The Markdown of a text node at the start of a line. -/
theorem textF_at (U : Uni) (n : Nat) (d : Str) (hn : (mdEscapeText d).length ≤ n) (b : MdB) (hb : (b.buf = [] ∧ b.nl = 0) ∨ 0 < b.nl) (hd : words d ≠ []) :
    (MdB.textF U n b (mdEscapeText d)).out = b.out ++ mdLineOf U (mdEscapeText (d.dropWhile isHtmlSpace)) ∧ Busy (MdB.textF U n b (mdEscapeText d)) ∧
      (MdB.textF U n b (mdEscapeText d)).pend = endsSpc b.pend d := by
  induction d generalizing n b with
  | nil => exact absurd rfl hd
  | cons c t ih =>
    rw [mdEscapeText_cons] at hn ⊢
    cases hc : isHtmlSpace c with
    | true =>
      rw [isHtmlSpace_special c hc, List.singleton_append] at hn ⊢
      rw [List.dropWhile_cons_of_pos hc]
      cases n with
      | zero => simp at hn
      | succ n =>
        rw [MdB.textF, if_pos hc]
        rw [words_ws c t (by rw [← hc]; exact (ws_eq c).symm)] at hd
        have := ih n (by simpa using hn) { b with lead := b.lead || b.buf.isEmpty, pend := true } hb hd
        rw [endsSpc, hc]
        exact this
    | false =>
      rw [List.dropWhile_cons_of_neg (by simp [hc]), mdEscapeText_cons]
      have hf : b.flushText.buf = b.buf ∧ b.flushText.nl = b.nl ∧ b.flushText.pend = false := by
        unfold MdB.flushText
        cases hp : b.pend with
        | false => simp [hp]
        | true =>
          rw [if_pos rfl]
          refine ⟨?_, rfl, rfl⟩
          dsimp only
          rw [if_neg]
          rcases hb with ⟨h1, -⟩ | h1
          · simp [h1]
          · have : b.nl ≠ 0 := by omega
            simp [this]
      obtain ⟨hf1, hf2, hf3⟩ := hf
      have hat : (b.flushText.buf.isEmpty || decide (b.flushText.nl > 0)) = true := by
        rw [hf1, hf2]
        rcases hb with ⟨h1, -⟩ | h1
        · simp [h1]
        · simp [h1]
      obtain ⟨x, y, e, hx, hy⟩ := mdEscapeC_head c hc
      cases n with
      | zero => rw [e] at hn; simp at hn
      | succ n =>
        have hstep : MdB.textF U (n + 1) b (mdEscapeC c ++ mdEscapeText t) =
            match mdLineStart U (mdEscapeC c ++ mdEscapeText t) with
            | some (r, rest) => MdB.textF U n { b.flushText with buf := r :: b.flushText.buf, nl := 0 } rest
            | none => MdB.textF U n { b.flushText with buf := [x] :: b.flushText.buf, nl := 0 } (y ++ mdEscapeText t) := by
          rw [e, List.cons_append, MdB.textF]
          rw [if_neg (by simp [hx])]
          dsimp only
          rw [if_pos hat]
          rfl
        rw [hstep, mdLineOf]
        cases hl : mdLineStart U (mdEscapeC c ++ mdEscapeText t) with
        | none =>
          dsimp only
          have hbusy : Busy { b.flushText with buf := [x] :: b.flushText.buf, nl := 0 } := ⟨by simp, rfl, by simp [MdB.endsBlank, isBlank_of x hx]⟩
          have hp : (MdB.textF U n { b.flushText with buf := [x] :: b.flushText.buf, nl := 0 } (y ++ mdEscapeText t)).pend = endsSpc b.pend (c :: t) := by
            rw [textF_pend U n _ (by rw [e] at hn; simpa using hn) _ hbusy, endsSpc_append, endsSpc, hc]
            dsimp only
            rw [hf3, endsSpc_all y hy, endsSpc_escape]
          refine ⟨?_, textF_stays U n _ _ hbusy, hp⟩
          rw [textF_busy U n _ (by rw [e] at hn; simpa using hn) _ hbusy]
          rw [e]
          simp [MdB.out, collapseTail, hx, hf3, hf1]
        | some p =>
          obtain ⟨r, rest⟩ := p
          dsimp only
          obtain ⟨w, d', h1, h2, h3, h4, h5, h6⟩ := mdLineStart_escape U c t hc r rest (by rw [mdEscapeText_cons]; exact hl)
          have hlen : rest.length ≤ n := by
            rw [h2]
            cases w with
            | nil =>
              have := h6 []
              cases r with
              | nil => exact absurd rfl h3
              | cons u v => exact absurd (by simpa [mdUnescape] using this) (mdUnescape_ne u v)
            | cons u w =>
              simp only [List.cons_append, List.cons.injEq] at h1
              have : (mdEscapeText t).length = (mdEscapeText w).length + (mdEscapeText d').length := by
                rw [h1.2]; simp [mdEscapeText]
              rw [e] at hn
              simp at hn
              omega
          have hbusy : Busy { b.flushText with buf := r :: b.flushText.buf, nl := 0 } := by
            refine ⟨by simp, rfl, ?_⟩
            unfold MdB.endsBlank
            simp only [List.head?_cons, Option.bind_some]
            cases hg : r.getLast? with
            | none => rfl
            | some z => simpa using isBlank_of z (h4 z hg)
          have hp : (MdB.textF U n { b.flushText with buf := r :: b.flushText.buf, nl := 0 } rest).pend = endsSpc b.pend (c :: t) := by
            rw [textF_pend U n _ hlen _ hbusy]
            dsimp only
            rw [hf3, h2, endsSpc_escape, show endsSpc b.pend (c :: t) = endsSpc false (c :: t) from rfl, h1, endsSpc_append, endsSpc_all w h5]
          refine ⟨?_, textF_stays U n _ _ hbusy, hp⟩
          rw [textF_busy U n _ hlen _ hbusy]
          simp [MdB.out, hf3, hf1]

/-! ### What collapsing keeps -/

theorem collapse_nil {t : Str} (h : collapseTail false t = []) : ∀ c ∈ t, isHtmlSpace c = true := by
  have : ∀ (t : Str) (p : Bool), collapseTail p t = [] → ∀ c ∈ t, isHtmlSpace c = true := by
    intro t
    induction t with
    | nil => intro _ _ c hc; simp at hc
    | cons x t ih =>
      intro p h c hc
      rw [collapseTail] at h
      split at h
      · next hx =>
        rcases List.mem_cons.1 hc with rfl | hc
        · exact hx
        · exact ih true h c hc
      · cases p <;> simp at h
  exact this t false h

/-- A text whose line ends or goes on with white space is empty or goes on with white space. -/
theorem after_collapse (t : Str) (h : AfterMarker (collapseTail false t)) : t = [] ∨ ∃ x t', t = x :: t' ∧ isHtmlSpace x = true := by
  cases t with
  | nil => exact .inl rfl
  | cons x t =>
    refine .inr ⟨x, t, rfl, ?_⟩
    cases hx : isHtmlSpace x with
    | true => rfl
    | false =>
      exfalso
      rw [collapseTail, if_neg (by simp [hx])] at h
      have := h x rfl
      have := isBlank_of x hx
      simp only [isBlank, Bool.or_eq_false_iff, decide_eq_false_iff_not] at this
      rcases h x rfl with k | k <;> simp_all

/-- A run of other characters at the start of the line is at the start of the text. -/
theorem collapse_run (w y : Str) (hw : ∀ c ∈ w, isHtmlSpace c = false) : ∀ t, collapseTail false t = w ++ y → (w = [] ∨ ∃ t', t = w ++ t' ∧ collapseTail false t' = y) := by
  induction w with
  | nil => intro t _; exact .inl rfl
  | cons c w ih =>
    intro t h
    refine .inr ?_
    cases t with
    | nil => simp [collapseTail] at h
    | cons x t =>
      cases hx : isHtmlSpace x with
      | true =>
        exfalso
        rw [collapseTail, if_pos hx] at h
        have hsp : ∀ t : Str, ∀ z, (collapseTail true t).head? = some z → z = ' ' := by
          intro t
          induction t with
          | nil => intro z hz; simp [collapseTail] at hz
          | cons u t iht =>
            intro z hz
            rw [collapseTail] at hz
            split at hz
            · exact iht z hz
            · simpa using hz.symm
        have h1 := hsp t c (by rw [h]; rfl)
        have := hw c (by simp)
        rw [h1] at this
        exact absurd this (by decide)
      | false =>
        rw [collapseTail, if_neg (by simp [hx])] at h
        simp only [Bool.false_eq_true, if_false, List.nil_append, List.cons_append, List.cons.injEq] at h
        obtain ⟨rfl, h⟩ := h
        rcases ih (fun z hz => hw z (by simp [hz])) t h with rfl | ⟨t', h1, h2⟩
        · exact ⟨t, rfl, by simpa using h⟩
        · exact ⟨t', by rw [h1]; rfl, h2⟩

/-- The other characters are kept. -/
theorem collapse_filter (t : Str) : ∀ p, (collapseTail p t).filter (fun c => !isHtmlSpace c) = t.filter fun c => !isHtmlSpace c := by
  induction t with
  | nil => intro p; rfl
  | cons x t ih =>
    intro p
    rw [collapseTail]
    cases hx : isHtmlSpace x with
    | true => simp [hx, ih true]
    | false => cases p <;> simp [hx, ih false, show isHtmlSpace ' ' = true by decide]

/-! ### What escaping keeps -/

theorem esc_nil {l : Str} (h : mdEscapeText l = []) : l = [] := by
  cases l with
  | nil => rfl
  | cons a l =>
    rw [mdEscapeText_cons] at h
    rcases mdEscapeC_cases a with ⟨-, e⟩ | ⟨-, e⟩ | ⟨-, e⟩ | ⟨-, -, -, e⟩ <;> (rw [e] at h; simp at h)

/-- A run of characters that no escape begins with is in the text itself. -/
theorem esc_run (w y : Str) (hw : ∀ x ∈ w, x ≠ '&' ∧ x ≠ '\\') : ∀ l, mdEscapeText l = w ++ y → ∃ l', l = w ++ l' ∧ y = mdEscapeText l' := by
  induction w with
  | nil => intro l h; exact ⟨l, rfl, by simpa using h.symm⟩
  | cons x w ih =>
    intro l h
    have hx := hw x (by simp)
    cases l with
    | nil => simp [mdEscapeText] at h
    | cons a l =>
      rw [mdEscapeText_cons] at h
      rcases mdEscapeC_cases a with ⟨-, e⟩ | ⟨-, e⟩ | ⟨-, e⟩ | ⟨-, -, -, e⟩
      · rw [e] at h; simp at h; exact absurd h.1.symm hx.1
      · rw [e] at h; simp at h; exact absurd h.1.symm hx.1
      · rw [e] at h; simp at h; exact absurd h.1.symm hx.2
      · rw [e] at h
        simp only [List.singleton_append, List.cons_append, List.cons.injEq] at h
        obtain ⟨l', h1, h2⟩ := ih (fun z hz => hw z (by simp [hz])) l h.2
        exact ⟨l', by rw [h.1, h1]; rfl, h2⟩

theorem after_esc (l : Str) (h : AfterMarker (mdEscapeText l)) : AfterMarker l := by
  intro c hc
  cases l with
  | nil => simp at hc
  | cons a l =>
    simp only [List.head?_cons, Option.some.injEq] at hc
    subst hc
    rcases mdEscapeC_cases a with ⟨-, e⟩ | ⟨-, e⟩ | ⟨-, e⟩ | ⟨-, -, -, e⟩ <;>
      (have := h _ (by rw [mdEscapeText_cons, e]; rfl); first | exact this | (rcases this with k | k <;> exact absurd k (by decide)))

/-! ### Marker lines -/

theorem rstrip_split (p : Char → Bool) (s : Str) : ∃ u, s = rstripP p s ++ u ∧ ∀ c ∈ u, p c = true := by
  refine ⟨(s.reverse.takeWhile p).reverse, ?_, fun c hc => ?_⟩
  · unfold rstripP
    rw [← List.reverse_append, List.takeWhile_append_dropWhile, List.reverse_reverse]
  · exact List.all_eq_true.1 (List.all_takeWhile (p := p) (l := s.reverse)) c (by simpa using hc)

theorem marker_line (s : Str) (m : Char) (n : Nat) (h0 : 1 ≤ n) (h : ∀ c ∈ s, isBlank c = true ∨ c = m) (hn : n ≤ (s.filter fun c => !isBlank c).length) :
    mdMarkerLine s m n = true := by
  obtain ⟨u, h1, h2⟩ := rstrip_split isBlank s
  have h3 : (s.filter fun c => !isBlank c) = (rstripP isBlank s).filter fun c => !isBlank c := by
    have hu : u.filter (fun c => !isBlank c) = [] := by
      rw [List.filter_eq_nil_iff]; intro c hc; simp [h2 c hc]
    conv => lhs; rw [h1]
    rw [List.filter_append, hu, List.append_nil]
  have h4 : ∀ c ∈ rstripP isBlank s, isBlank c = true ∨ c = m := fun c hc => h c (by rw [h1]; exact List.mem_append_left _ hc)
  rw [h3] at hn
  unfold mdMarkerLine
  dsimp only
  generalize rstripP isBlank s = t at hn h4
  cases t with
  | nil => simp at hn; omega
  | cons a t =>
    rw [if_neg (by simp)]
    rw [Bool.and_eq_true]
    refine ⟨List.all_eq_true.2 fun c hc => ?_, by simpa using hn⟩
    rcases h4 c hc with k | k <;> simp [k]

theorem blank_iff (c : Char) : isBlank c = true ↔ MdBlank c := by simp [isBlank, MdBlank]

theorem mdBlank_space {c : Char} (h : MdBlank c) : isHtmlSpace c = true := by
  rcases h with rfl | rfl <;> decide

/-- What the escape at a line start looks like. -/
theorem lineStart_shape (U : Uni) (s r rest : Str) (h : mdLineStart U s = some (r, rest)) :
    (∃ v, r = '\\' :: v) ∨ ∃ ds p, ds ≠ [] ∧ (∀ c ∈ ds, U.isDigit c = true) ∧ r = ds ++ ['\\', p] := by
  unfold mdLineStart at h
  cases s with
  | nil => simp at h
  | cons c t =>
    dsimp only at h
    by_cases h1 : c = '#'
    · rw [if_pos h1] at h
      split at h
      · simp at h; exact .inl ⟨_, h.1.symm⟩
      · split at h
        · simp at h; exact .inl ⟨_, h.1.symm⟩
        · simp at h
    rw [if_neg h1] at h
    by_cases h1 : c = '>'
    · rw [if_pos h1] at h; simp at h; exact .inl ⟨_, h.1.symm⟩
    rw [if_neg h1] at h
    by_cases h1 : c = '-'
    · rw [if_pos h1] at h
      split at h
      · simp at h; exact .inl ⟨_, h.1.symm⟩
      · simp at h
    rw [if_neg h1] at h
    by_cases h1 : c = '+'
    · rw [if_pos h1] at h
      split at h
      · simp at h; exact .inl ⟨_, h.1.symm⟩
      · simp at h
    rw [if_neg h1] at h
    by_cases h1 : c = '='
    · rw [if_pos h1] at h
      split at h
      · simp at h; exact .inl ⟨_, h.1.symm⟩
      · simp at h
    rw [if_neg h1] at h
    by_cases h1 : c = '~'
    · rw [if_pos h1] at h
      split at h
      · simp at h; exact .inl ⟨_, h.1.symm⟩
      · simp at h
    rw [if_neg h1] at h
    by_cases h1 : c = '`'
    · rw [if_pos h1] at h
      split at h
      · simp at h; exact .inl ⟨_, h.1.symm⟩
      · simp at h
    rw [if_neg h1] at h
    by_cases hd : U.isDigit c = true
    · rw [if_pos hd] at h
      split at h
      · split at h
        · simp only [Option.some.injEq, Prod.mk.injEq] at h
          refine .inr ⟨c :: t.takeWhile U.isDigit, _, by simp, fun x hx => ?_, h.1.symm⟩
          rcases List.mem_cons.1 hx with rfl | hx
          · exact hd
          · exact List.all_eq_true.1 (List.all_takeWhile (p := U.isDigit) (l := t)) x hx
        · simp at h
      · simp at h
    · rw [if_neg hd] at h; simp at h

/-- How a line of these kinds begins. -/
theorem starts_head {l : Str} (h : StartsBlock l) : (∃ x t, l = x :: t ∧ x ∈ c%"#-+*>_`~=<[ \t") ∨
    ∃ ds p r, l = ds ++ p :: r ∧ (∀ c ∈ ds, isDigitC c = true) ∧ 1 ≤ ds.length ∧ p ∈ c%".)" := by
  cases h with
  | heading k r h1 h2 h3 h4 =>
    cases k with
    | zero => omega
    | succ k => exact .inl ⟨'#', List.replicate k '#' ++ r, by rw [h1]; rfl, by decide⟩
  | bullet m r h1 h2 =>
    refine .inl ⟨m, r, h1, ?_⟩
    simp only [List.mem_cons, List.not_mem_nil, or_false] at h2
    rcases h2 with rfl | rfl | rfl <;> decide
  | ordered ds p r h1 h2 h3 h4 h5 => exact .inr ⟨ds, p, r, h1, h2, h3, h5⟩
  | quote r h => exact .inl ⟨_, r, h, by decide⟩
  | rule m h1 h2 h3 =>
    cases l with
    | nil => simp at h3
    | cons x t =>
      refine .inl ⟨x, t, rfl, ?_⟩
      simp only [List.mem_cons, List.not_mem_nil, or_false] at h1
      rcases h2 x (by simp) with rfl | rfl | rfl
      · rcases h1 with rfl | rfl | rfl <;> decide
      · decide
      · decide
  | fence m r h1 h2 =>
    refine .inl ⟨m, _, h1, ?_⟩
    simp only [List.mem_cons, List.not_mem_nil, or_false] at h2
    rcases h2 with rfl | rfl <;> decide
  | underline m u r h1 h2 h3 h4 h5 =>
    cases u with
    | nil => exact absurd rfl h3
    | cons x u =>
      refine .inl ⟨x, u ++ r, by rw [h1]; rfl, ?_⟩
      rw [h4 x (by simp)]
      simp only [List.mem_cons, List.not_mem_nil, or_false] at h2
      rcases h2 with rfl | rfl <;> decide
  | html r h => exact .inl ⟨_, r, h, by decide⟩
  | linkDef r h => exact .inl ⟨_, r, h, by decide⟩
  | code c r h hb =>
    refine .inl ⟨c, r, h, ?_⟩
    rcases hb with rfl | rfl <;> decide

theorem digit_ascii (U : Uni) {c : Char} (h : isDigitC c = true) : U.isDigit c = true ∧ isHtmlSpace c = false ∧ c ≠ '&' ∧ c ≠ '\\' := by
  have ha : isAscii c = true := by
    have h1 : '0'.toNat = 48 := rfl
    have h2 : '9'.toNat = 57 := rfl
    simp only [isDigitC, Bool.and_eq_true, decide_eq_true_eq] at h
    simp only [isAscii, decide_eq_true_eq]
    omega
  refine ⟨by rw [U.isDigit_ascii c ha]; exact h, ?_, ?_, ?_⟩
  · cases hs : isHtmlSpace c with
    | false => rfl
    | true =>
      simp only [isHtmlSpace, Bool.or_eq_true, decide_eq_true_eq] at hs
      rcases hs with (((k | k) | k) | k) | k <;> (subst k; exact absurd h (by decide))
  · rintro rfl; exact absurd h (by decide)
  · rintro rfl; exact absurd h (by decide)

/-- An escaped line begins no block. -/
theorem escaped_plain (U : Uni) (s r rest z : Str) (h : mdLineStart U s = some (r, rest)) : ¬ StartsBlock (r ++ z) := by
  intro hb
  rcases lineStart_shape U s r rest h with ⟨v, rfl⟩ | ⟨ds, p, h1, h2, rfl⟩
  · rcases starts_head hb with ⟨x, t, h3, h4⟩ | ⟨ds, p, r, h3, h4, h5, h6⟩
    · rw [List.cons_append, List.cons.injEq] at h3
      rw [← h3.1] at h4; exact absurd h4 (by decide)
    · cases ds with
      | nil => simp at h5
      | cons d ds =>
        rw [List.cons_append, List.cons_append, List.cons.injEq] at h3
        exact (digit_ascii U (h4 d (by simp))).2.2.2 h3.1.symm
  · have nd : ∀ x, x ∈ c%"#-+*>_`~=<[ \t\\.)" → U.isDigit x = false := by
      intro x hx
      have h1 : c%"#-+*>_`~=<[ \t\\.)".all fun x => isAscii x && !isDigitC x := by decide
      have h2 := List.all_eq_true.1 h1 x hx
      rw [Bool.and_eq_true] at h2
      rw [U.isDigit_ascii x h2.1]; simpa using h2.2
    rcases starts_head hb with ⟨x, t, h3, h4⟩ | ⟨ds', p', r', h3, h4, h5, h6⟩
    · cases ds with
      | nil => exact h1 rfl
      | cons d ds =>
        rw [List.cons_append, List.cons_append, List.cons.injEq] at h3
        have hd := h2 d (by simp)
        rw [h3.1, nd x (by simp only [List.mem_cons, List.not_mem_nil, or_false] at h4 ⊢; grind)] at hd
        cases hd
    · have h7 := congrArg (List.dropWhile U.isDigit) h3
      rw [List.append_assoc, List.dropWhile_append_of_pos h2, List.dropWhile_append_of_pos (fun c hc => (digit_ascii U (h4 c hc)).1)] at h7
      have hp' : U.isDigit p' = false ∧ p' ≠ '\\' := by
        simp only [List.mem_cons, List.not_mem_nil, or_false] at h6
        rcases h6 with rfl | rfl
        · exact ⟨nd _ (by decide), by decide⟩
        · exact ⟨nd _ (by decide), by decide⟩
      rw [List.dropWhile_cons_of_neg (by simp [hp'.1])] at h7
      simp only [List.cons_append, List.nil_append] at h7
      rw [List.dropWhile_cons_of_neg (by simp [nd '\\' (by decide)]), List.cons.injEq] at h7
      exact hp'.2 h7.1.symm

/-! ### The theorem -/

/-- A line that is all marker or white space. -/
theorem marked_line {t : Str} (h1 : ∀ c ∈ t, isHtmlSpace c = true → MdBlank c) {m : Char} (hm : isHtmlSpace m = false) (hp : mdEscapeC m = [m]) {w : Str}
    (hw : ∀ c ∈ w, c = m ∨ MdBlank c) (e : mdEscapeText (collapseTail false t) = w) :
    collapseTail false t = w ∧ mdEscapeText t = t ∧ (∀ c ∈ t, isBlank c = true ∨ c = m) ∧ (t.filter fun c => !isBlank c).length = w.count m := by
  have hmp : m ≠ '&' ∧ m ≠ '\\' := by
    constructor <;> (rintro rfl; exact absurd hp (by decide))
  have e1 : collapseTail false t = w := by
    obtain ⟨l', h2, h3⟩ := esc_run w [] (fun x hx => by
      rcases hw x hx with rfl | rfl | rfl
      · exact hmp
      · decide
      · decide) _ (by rw [e, List.append_nil])
    rw [h2, esc_nil h3.symm, List.append_nil]
  have e2 : ∀ c ∈ t, isBlank c = true ∨ c = m := by
    intro c hc
    cases hs : isHtmlSpace c with
    | true => exact .inl ((blank_iff c).2 (h1 c hc hs))
    | false =>
      have : c ∈ t.filter fun c => !isHtmlSpace c := List.mem_filter.2 ⟨hc, by simp [hs]⟩
      rw [← collapse_filter t false, e1] at this
      rcases hw c (List.mem_filter.1 this).1 with k | k
      · exact .inr k
      · rw [mdBlank_space k] at hs; cases hs
  refine ⟨e1, ?_, e2, ?_⟩
  · clear e e1 h1
    induction t with
    | nil => rfl
    | cons c t ih =>
      rw [mdEscapeText_cons, ih fun x hx => e2 x (by simp [hx])]
      rcases e2 c (by simp) with k | k
      · rw [isHtmlSpace_special c (mdBlank_space ((blank_iff c).1 k))]; rfl
      · rw [k, hp]; rfl
  · have h3 : (t.filter fun c => !isBlank c) = t.filter fun c => !isHtmlSpace c := by
      apply List.filter_congr
      intro c hc
      rcases e2 c hc with k | k
      · rw [k, mdBlank_space ((blank_iff c).1 k)]
      · rw [k, hm, isBlank_of m hm]
    rw [h3, ← collapse_filter t false, e1]
    clear h3 e e1 e2 h1
    induction w with
    | nil => rfl
    | cons c w ih =>
      have ih := ih fun x hx => hw x (by simp [hx])
      rcases hw c (by simp) with k | k
      · rw [k, List.filter_cons_of_pos (by simp [hm]), List.length_cons, ih, List.count_cons_self]
      · have : c ≠ m := by rintro rfl; rw [mdBlank_space k] at hm; cases hm
        rw [List.filter_cons_of_neg (by simp [mdBlank_space k]), ih, List.count_cons_of_ne this]

/-- The line of a text that begins with a word. -/
theorem line_plain (U : Uni) (c : Char) (t : Str) (hc : isHtmlSpace c = false) (h1 : ∀ x ∈ c :: t, isHtmlSpace x = true → MdBlank x)
    (h2 : ¬ Overlooked (collapseTail false (c :: t))) : ¬ StartsBlock (mdLineOf U (mdEscapeText (c :: t))) := by
  intro h
  unfold mdLineOf at h
  cases hl : mdLineStart U (mdEscapeText (c :: t)) with
  | some p =>
    obtain ⟨r, rest⟩ := p
    rw [hl] at h
    exact escaped_plain U _ r rest _ hl h
  | none =>
    rw [hl] at h
    dsimp only at h
    rw [collapse_escape] at h
    have hcol : collapseTail false (c :: t) = c :: collapseTail false t := by simp [collapseTail, hc]
    have bad : ∀ x : Char, x ∉ c%"#-+*>_`~=<[ \t" → isDigitC x = false → ∀ y, mdEscapeC c = x :: y → False := by
      intro x hx hd y e
      rw [hcol, mdEscapeText_cons, e] at h
      rcases starts_head h with ⟨x', t', h3, h4⟩ | ⟨ds, p, r, h3, h4, h5, -⟩
      · rw [List.cons_append, List.cons.injEq] at h3
        rw [← h3.1] at h4; exact hx h4
      · cases ds with
        | nil => simp at h5
        | cons d ds =>
          rw [List.cons_append, List.cons_append, List.cons.injEq] at h3
          have := h4 d (by simp)
          rw [← h3.1, hd] at this; cases this
    rcases mdEscapeC_cases c with ⟨-, e⟩ | ⟨-, e⟩ | ⟨-, e⟩ | ⟨hc1, hc2, hc3, e⟩
    · exact bad _ (by decide) (by decide) _ e
    · exact bad _ (by decide) (by decide) _ e
    · exact bad _ (by decide) (by decide) _ e
    -- what follows a marker
    have follow : ∀ w, (∀ x ∈ w, isHtmlSpace x = false) → w ≠ [] → ∀ r, collapseTail false (c :: t) = w ++ r → AfterMarker r →
        (r = [] ∨ ∃ x t', c :: t = w ++ x :: t' ∧ isBlank x = true) := by
      intro w hw hne r e2 h3
      rcases collapse_run w r hw _ e2 with k | ⟨t', k1, k2⟩
      · exact absurd k hne
      · rw [← k2] at h3
        rcases after_collapse t' h3 with rfl | ⟨x, t'', rfl, hx⟩
        · exact .inl k2.symm
        · exact .inr ⟨x, t'', k1, (blank_iff x).2 (h1 x (by rw [k1]; simp) hx)⟩
    have empty : ∀ w, (∀ x ∈ w, isHtmlSpace x = false) → w ≠ [] → collapseTail false (c :: t) = w → c :: t = w ∨ ∃ x t', c :: t = w ++ x :: t' ∧ isBlank x = true := by
      intro w hw hne e2
      rcases collapse_run w [] hw _ (by rw [List.append_nil]; exact e2) with k | ⟨t', k1, k2⟩
      · exact absurd k hne
      · cases t' with
        | nil => exact .inl (by rw [k1, List.append_nil])
        | cons x t' => exact .inr ⟨x, t', k1, (blank_iff x).2 (h1 x (by rw [k1]; simp) (collapse_nil k2 x (by simp)))⟩
    have esc_blank : ∀ x t', isBlank x = true → mdEscapeText (x :: t') = x :: mdEscapeText t' := by
      intro x t' hx
      rw [mdEscapeText_cons, isHtmlSpace_special x (mdBlank_space ((blank_iff x).1 hx))]; rfl
    have marker : ∀ m n, isHtmlSpace m = false → mdEscapeC m = [m] → 1 ≤ n → (∀ x ∈ mdEscapeText (collapseTail false (c :: t)), x = m ∨ MdBlank x) →
        n ≤ (mdEscapeText (collapseTail false (c :: t))).count m → mdMarkerLine (mdEscapeText (c :: t)) m n = true := by
      intro m n hm hp h0 hw hn
      obtain ⟨k1, k2, k3, k4⟩ := marked_line h1 hm hp hw rfl
      rw [k2]
      exact marker_line _ m n h0 k3 (by rw [k4]; exact hn)
    rw [mdEscapeText_cons, e, List.singleton_append] at hl
    cases h with
    | heading k r e1 hk1 hk2 ha =>
      obtain ⟨l', e2, e3⟩ := esc_run _ r (fun x hx => by rw [List.eq_of_mem_replicate hx]; decide) _ e1
      rw [e3] at ha
      have ha := after_esc _ ha
      by_cases hk : 2 ≤ k
      · exact h2 (.heading k l' e2 hk hk2 ha)
      · obtain rfl : k = 1 := by omega
        have hcc : c = '#' := by
          rw [hcol] at e2
          exact (List.cons.inj e2).1
        subst hcc
        have htail : collapseTail false t = l' := by
          rw [hcol] at e2
          exact (List.cons.inj e2).2
        rw [← htail] at ha
        rcases after_collapse t ha with rfl | ⟨x, t', rfl, hx⟩
        · simp [mdEscapeText, mdLineStart] at hl
        · have hb := (blank_iff x).2 (h1 x (by simp) hx)
          rw [esc_blank x t' hb] at hl
          simp [mdLineStart, hb] at hl
    | bullet m r e1 hm ha =>
      obtain ⟨l', e2, e3⟩ := esc_run [m] r (fun x hx => by
        simp only [List.mem_cons, List.not_mem_nil, or_false] at hm hx
        subst hx
        rcases hm with rfl | rfl | rfl <;> decide) _ e1
      rw [e3] at ha
      have ha := after_esc _ ha
      have hcm : c = m := by rw [hcol] at e2; exact (List.cons.inj e2).1
      subst hcm
      simp only [List.mem_cons, List.not_mem_nil, or_false] at hm
      rcases follow [c] (by simpa using hc) (by simp) l' e2 ha with rfl | ⟨x, t', e4, hb⟩
      · rcases hm with rfl | rfl | rfl
        · exact h2 (.lone (by rw [e2]; decide))
        · exact h2 (.lone (by rw [e2]; decide))
        · exact absurd hc3 (by decide)
      · rw [List.singleton_append, List.cons.injEq] at e4
        rw [e4.2, esc_blank x t' hb] at hl
        rcases hm with rfl | rfl | rfl
        · simp [mdLineStart, hb] at hl
        · simp [mdLineStart, hb] at hl
        · exact absurd hc3 (by decide)
    | ordered ds p r e1 hd hl1 hl2 hp ha =>
      have hpp : p ≠ '&' ∧ p ≠ '\\' ∧ isHtmlSpace p = false ∧ isAscii p = true ∧ isDigitC p = false ∧ (p = '.' ∨ p = ')') := by
        simp only [List.mem_cons, List.not_mem_nil, or_false] at hp
        rcases hp with rfl | rfl <;> decide
      obtain ⟨l', e2, e3⟩ := esc_run (ds ++ [p]) r (fun x hx => by
        rcases List.mem_append.1 hx with hx | hx
        · exact (digit_ascii U (hd x hx)).2.2
        · simp only [List.mem_cons, List.not_mem_nil, or_false] at hx
          rw [hx]; exact ⟨hpp.1, hpp.2.1⟩) _ (by rw [e1]; simp)
      rw [e3] at ha
      have ha := after_esc _ ha
      rcases follow (ds ++ [p]) (fun x hx => by
        rcases List.mem_append.1 hx with hx | hx
        · exact (digit_ascii U (hd x hx)).2.1
        · simp only [List.mem_cons, List.not_mem_nil, or_false] at hx
          rw [hx]; exact hpp.2.2.1) (by simp) l' e2 ha with rfl | ⟨x, t', e4, hb⟩
      · exact h2 (.number ds p (by rw [e2, List.append_nil]) hd hl1 hl2 hp)
      · cases ds with
        | nil => simp at hl1
        | cons d ds =>
          simp only [List.cons_append, List.append_assoc, List.nil_append, List.cons.injEq] at e4
          obtain ⟨rfl, rfl⟩ := e4
          have hdd := (digit_ascii U (hd c (by simp))).1
          have hne : ∀ y : Char, isDigitC y = false → c ≠ y := by
            intro y hy k
            have := hd c (by simp)
            rw [k, hy] at this; cases this
          have hdig : ∀ (ds : Str), (∀ x ∈ ds, isDigitC x = true) → mdEscapeText (ds ++ p :: x :: t') = ds ++ p :: x :: mdEscapeText t' := by
            intro ds
            induction ds with
            | nil =>
              intro _
              rw [List.nil_append, List.nil_append, mdEscapeText_cons, esc_blank x t' hb]
              rcases hpp.2.2.2.2.2 with rfl | rfl <;> rfl
            | cons a ds ih =>
              intro hds
              rw [List.cons_append, mdEscapeText_cons, digit_plain U a (digit_ascii U (hds a (by simp))).1, ih fun z hz => hds z (by simp [hz])]
              rfl
          rw [hdig ds fun z hz => hd z (by simp [hz])] at hl
          unfold mdLineStart at hl
          dsimp only at hl
          rw [if_neg (hne '#' (by decide)), if_neg (hne '>' (by decide)), if_neg (hne '-' (by decide)), if_neg (hne '+' (by decide)),
            if_neg (hne '=' (by decide)), if_neg (hne '~' (by decide)), if_neg (hne '`' (by decide)), if_pos hdd,
            List.dropWhile_append_of_pos (fun z hz => (digit_ascii U (hd z (by simp [hz]))).1),
            List.dropWhile_cons_of_neg (by rw [U.isDigit_ascii p hpp.2.2.2.1, hpp.2.2.2.2.1]; simp)] at hl
          dsimp only at hl
          rw [if_pos (by rw [hb]; rcases hpp.2.2.2.2.2 with rfl | rfl <;> rfl)] at hl
          cases hl
    | quote r e1 =>
      obtain ⟨l', e2, -⟩ := esc_run ['>'] r (by decide) _ e1
      rw [hcol] at e2
      obtain rfl : c = '>' := (List.cons.inj e2).1
      simp [mdLineStart] at hl
    | rule m hm hw hn =>
      have hcm : c = m := by
        have : c ∈ mdEscapeText (collapseTail false (c :: t)) := by rw [hcol, mdEscapeText_cons, e]; simp
        rcases hw c this with k | k
        · exact k
        · rw [mdBlank_space k] at hc; cases hc
      subst hcm
      have hmm := marker c 3 hc e (by omega) hw hn
      simp only [List.mem_cons, List.not_mem_nil, or_false] at hm
      rcases hm with rfl | rfl | rfl
      · rw [mdEscapeText_cons, e, List.singleton_append] at hmm
        simp [mdLineStart, hmm] at hl
      · exact absurd hc3 (by decide)
      · exact absurd hc3 (by decide)
    | fence m r e1 hm =>
      obtain ⟨l', e2, -⟩ := esc_run [m, m, m] r (fun x hx => by
        simp only [List.mem_cons, List.not_mem_nil, or_false] at hm hx
        rcases hm with rfl | rfl <;> (rcases hx with rfl | rfl | rfl <;> decide)) _ e1
      have hcm : c = m := by rw [hcol] at e2; exact (List.cons.inj e2).1
      subst hcm
      simp only [List.mem_cons, List.not_mem_nil, or_false] at hm
      rcases hm with rfl | rfl
      · exact absurd hc3 (by decide)
      · rcases collapse_run _ l' (by decide) _ e2 with k | ⟨t', k1, -⟩
        · cases k
        · simp only [List.cons_append, List.nil_append, List.cons.injEq, true_and] at k1
          subst k1
          rw [mdEscapeText_cons, mdEscapeText_cons, e] at hl
          simp [mdLineStart, startsWith] at hl
    | underline m u r e1 hm hu1 hu hr =>
      have hw : ∀ x ∈ mdEscapeText (collapseTail false (c :: t)), x = m ∨ MdBlank x := by
        rw [e1]
        intro x hx
        rcases List.mem_append.1 hx with k | k
        · exact .inl (hu x k)
        · exact .inr (hr x k)
      have hcm : c = m := by
        have : c ∈ mdEscapeText (collapseTail false (c :: t)) := by rw [hcol, mdEscapeText_cons, e]; simp
        rcases hw c this with k | k
        · exact k
        · rw [mdBlank_space k] at hc; cases hc
      subst hcm
      have hcount : 1 ≤ (mdEscapeText (collapseTail false (c :: t))).count c := by
        rw [hcol, mdEscapeText_cons, e]; simp
      simp only [List.mem_cons, List.not_mem_nil, or_false] at hm
      rcases hm with rfl | rfl
      · have hmm := marker '=' 1 hc e (by omega) hw hcount
        rw [mdEscapeText_cons, e, List.singleton_append] at hmm
        simp [mdLineStart, hmm] at hl
      · by_cases h3 : 3 ≤ (mdEscapeText (collapseTail false ('-' :: t))).count '-'
        · have hmm := marker '-' 3 hc e (by omega) hw h3
          rw [mdEscapeText_cons, e, List.singleton_append] at hmm
          simp [mdLineStart, hmm] at hl
        · obtain ⟨k1, -, -, -⟩ := marked_line h1 hc e hw rfl
          have hr0 : r = [] := by
            cases hg : r.getLast? with
            | none => simpa using hg
            | some y =>
              have h5 := collapseTail_last ('-' :: t) false y (by rw [k1, e1, List.getLast?_append, hg]; rfl)
              rw [mdBlank_space (hr y (List.mem_of_getLast? hg))] at h5; cases h5
          subst hr0
          rw [List.append_nil] at e1
          rw [e1] at h3 k1
          have hrep : u = List.replicate u.length '-' := List.eq_replicate_iff.2 ⟨rfl, hu⟩
          have hlen : u.length < 3 := by
            rw [hrep, List.count_replicate_self] at h3; omega
          refine h2 (.lone ?_)
          rw [k1, hrep]
          cases u with
          | nil => exact absurd rfl hu1
          | cons a u =>
            cases u with
            | nil => simp
            | cons b u =>
              cases u with
              | nil => simp [List.replicate]
              | cons d u => simp at hlen; omega
    | html r e1 =>
      obtain ⟨l', e2, -⟩ := esc_run ['<'] r (by decide) _ e1
      rw [hcol] at e2
      exact hc2 (List.cons.inj e2).1
    | linkDef r e1 =>
      obtain ⟨l', e2, -⟩ := esc_run ['['] r (by decide) _ e1
      rw [hcol] at e2
      obtain rfl : c = '[' := (List.cons.inj e2).1
      exact absurd hc3 (by decide)
    | code x r e1 hb =>
      obtain ⟨l', e2, -⟩ := esc_run [x] r (fun y hy => by
        simp only [List.mem_cons, List.not_mem_nil, or_false] at hy
        rcases hb with rfl | rfl <;> (subst hy; decide)) _ e1
      rw [hcol] at e2
      rw [(List.cons.inj e2).1, mdBlank_space hb] at hc; cases hc

/-- The Markdown of a text node. -/
theorem text_line (U : Uni) (html : Node → Str) (pass : Bool) (d : Str) :
    toMarkdown U html pass (.text d) = mdLineOf U (mdEscapeText (d.dropWhile isHtmlSpace)) := by
  unfold toMarkdown mdVisit MdB.finish MdB.text
  obtain ⟨o, e1, -, h3, h4⟩ := textF_start U _ d (Nat.le_refl _) (MdB.new 0) rfl rfl
  have hs : ∀ y, isHtmlSpace y = false → isFinishStrip y = false := by
    intro y h
    simp only [isHtmlSpace, Bool.or_eq_false_iff, decide_eq_false_iff_not] at h
    simp [isFinishStrip, h.1.1.1.1, h.1.1.1.2, h.1.1.2]
  rw [e1, stripP_id _ o (fun y hy => hs y (h3 y hy)) (fun y hy => hs y (h4 y hy)), ← e1, textF_line U _ d (Nat.le_refl _) (MdB.new 0) rfl rfl]

/-- **C110 (partial).** A text node on its own never becomes a Markdown heading, list, quote, rule, fence, setext underline, HTML block, link definition
or indented code, if its only white space is the space and the tab and its line is not one of those the code overlooks. Missing: the other white space and
the overlooked lines, where the claim is false (`C110_fails`). -/
theorem C110_text_partial (U : Uni) (html : Node → Str) (pass : Bool) (d : Str) (h1 : ∀ c ∈ d, isHtmlSpace c = true → MdBlank c)
    (h2 : ¬ Overlooked (join [' '] (words d))) : ¬ StartsBlock (toMarkdown U html pass (.text d)) := by
  rw [text_line]
  have hw : words d = words (d.dropWhile isHtmlSpace) := by
    clear h1 h2
    induction d with
    | nil => rfl
    | cons c t ih =>
      cases hc : isHtmlSpace c with
      | true =>
        rw [List.dropWhile_cons_of_pos hc, words_ws c t (by rw [← hc]; exact (ws_eq c).symm)]
        exact ih
      | false => rw [List.dropWhile_cons_of_neg (by simp [hc])]
  rw [hw] at h2
  have h1' : ∀ c ∈ d.dropWhile isHtmlSpace, isHtmlSpace c = true → MdBlank c := fun c hc => h1 c (List.dropWhile_subset _ hc)
  cases hd : d.dropWhile isHtmlSpace with
  | nil =>
    intro h
    rcases starts_head h with ⟨x, t, h5, -⟩ | ⟨ds, p, r, h5, -, -, -⟩
    · simp [mdLineOf, mdLineStart, mdEscapeText, collapseTail] at h5
    · simp [mdLineOf, mdLineStart, mdEscapeText, collapseTail] at h5
  | cons c t =>
    rw [hd] at h1' h2
    have hc : isHtmlSpace c = false := by
      have := List.head?_dropWhile_not isHtmlSpace d
      rw [hd] at this
      simpa using this
    exact line_plain U c t hc h1' (by rw [(collapseTail_words (c :: t)).2 c t rfl hc]; exact h2)

/-! ### Paragraphs -/

theorem rstrip_busy {b : MdB} (h : Busy b) : ∃ l r, b.buf = l :: r ∧ rstripP isBlank l = l := by
  obtain ⟨h1, -, h3⟩ := h
  cases e : b.buf with
  | nil => exact absurd e h1
  | cons l r =>
    refine ⟨l, r, rfl, ?_⟩
    rcases List.eq_nil_or_concat l with rfl | ⟨i, x, rfl⟩
    · rfl
    · have : isBlank x = false := by
        simpa [MdB.endsBlank, e] using h3
      simp [rstripP, this]

/-- A blank line after a line. -/
theorem ensure_busy {b : MdB} (h : Busy b) : (b.ensure 2).out = b.out ++ c%"\n\n" ∧ (b.ensure 2).nl = 2 := by
  obtain ⟨l, r, h1, h2⟩ := rstrip_busy h
  have h3 := h.2
  unfold MdB.ensure
  rw [if_pos (by rw [h3]; omega)]
  have h4 : b.newline1 = { b with pend := false, buf := ['\n'] :: l :: r, nl := 1 } := by
    unfold MdB.newline1
    rw [h1, h3]
    simp [h2]
  rw [h4]
  dsimp only
  rw [if_pos (by decide)]
  refine ⟨?_, ?_⟩
  · simp [MdB.newline1, MdB.out, h1, show rstripP isBlank ['\n'] = ['\n'] by decide]
  · simp [MdB.newline1]

theorem unescape_newline (s : Str) (h : '\n' ∉ mdUnescape s) : '\n' ∉ s := by
  fun_induction mdUnescape s with
  | case1 => simp
  | case2 c t hc ih =>
    simp only [List.mem_cons, not_or] at h ⊢
    exact ⟨by decide, h.1, ih h.2⟩
  | case3 c t hc ih =>
    simp only [List.mem_cons, not_or] at h ih ⊢
    exact ⟨h.1, ih h.2⟩
  | case4 t ih =>
    simp only [List.mem_cons, not_or] at h ⊢
    exact ⟨by decide, by decide, by decide, by decide, by decide, ih h.2⟩
  | case5 t ih =>
    simp only [List.mem_cons, not_or] at h ⊢
    exact ⟨by decide, by decide, by decide, by decide, ih h.2⟩
  | case6 c t _ _ _ ih =>
    simp only [List.mem_cons, not_or] at h ⊢
    exact ⟨h.1, ih h.2⟩

theorem collapse_mem (t : Str) : ∀ p, ∀ y ∈ collapseTail p t, y = ' ' ∨ isHtmlSpace y = false := by
  induction t with
  | nil => intro p y h; simp [collapseTail] at h
  | cons x t ih =>
    intro p y h
    rw [collapseTail] at h
    split at h
    · exact ih true y h
    · next hx =>
      rcases List.mem_append.1 h with h | h
      · cases p <;> simp at h
        exact .inl h
      · rcases List.mem_cons.1 h with rfl | h
        · exact .inr (by simpa using hx)
        · exact ih false y h

/-- The line of a paragraph, by its text. -/
theorem line_facts (U : Uni) (d : Str) (hd : words d ≠ []) : mdUnescape (mdLineOf U (mdEscapeText (d.dropWhile isHtmlSpace))) = join [' '] (words d) ∧
    '\n' ∉ mdLineOf U (mdEscapeText (d.dropWhile isHtmlSpace)) ∧ mdLineOf U (mdEscapeText (d.dropWhile isHtmlSpace)) ≠ [] ∧
    (∀ y, (mdLineOf U (mdEscapeText (d.dropWhile isHtmlSpace))).head? = some y → isHtmlSpace y = false) ∧
    (∀ y, (mdLineOf U (mdEscapeText (d.dropWhile isHtmlSpace))).getLast? = some y → isHtmlSpace y = false) := by
  obtain ⟨o, e1, e2, h3, h4⟩ := textF_start U _ d (Nat.le_refl _) (MdB.new 0) rfl rfl
  rw [textF_line U _ d (Nat.le_refl _) (MdB.new 0) rfl rfl] at e1
  rw [e1]
  have hw : ∀ d : Str, words d = words (d.dropWhile isHtmlSpace) := by
    intro d
    induction d with
    | nil => rfl
    | cons c t ih =>
      cases hc : isHtmlSpace c with
      | true =>
        rw [List.dropWhile_cons_of_pos hc, words_ws c t (by rw [← hc]; exact (ws_eq c).symm)]
        exact ih
      | false => rw [List.dropWhile_cons_of_neg (by simp [hc])]
  have hj : join [' '] (words d) ≠ [] ∧ '\n' ∉ join [' '] (words d) := by
    rw [hw d] at hd ⊢
    cases hdd : d.dropWhile isHtmlSpace with
    | nil => rw [hdd] at hd; exact absurd rfl hd
    | cons c t =>
      have hc : isHtmlSpace c = false := by
        have := List.head?_dropWhile_not isHtmlSpace d
        rw [hdd] at this
        simpa using this
      rw [← (collapseTail_words (c :: t)).2 c t rfl hc]
      refine ⟨by simp [collapseTail, hc], fun h => ?_⟩
      rcases collapse_mem _ _ _ h with k | k <;> exact absurd k (by decide)
  refine ⟨e2, unescape_newline o (by rw [e2]; exact hj.2), ?_, h3, h4⟩
  rintro rfl
  exact hj.1 (by rw [← e2]; rfl)

theorem join_append_flat (ls : List Str) (l : Str) : ((l :: ls).map (· ++ c%"\n\n")).flatten = join c%"\n\n" (l :: ls) ++ c%"\n\n" := by
  induction ls generalizing l with
  | nil => simp [join]
  | cons a ls ih =>
    rw [List.map_cons, List.flatten_cons, ih a]
    simp [join]

theorem paragraphs_visit (U : Uni) (html : Node → Str) (pass : Bool) (ns : Option Str) (attrs : List (Str × Option Str)) (ds : List Str) (hd : ∀ d ∈ ds, words d ≠ []) (b : MdB)
    (hb : (b.buf = [] ∧ b.nl = 0) ∨ b.nl = 2) :
    (mdVisitL U html pass b 0 false (ds.map fun d => .elem c%"p" ns attrs [.text d] false [])).out =
      b.out ++ ((ds.map fun d => mdLineOf U (mdEscapeText (d.dropWhile isHtmlSpace))).map (· ++ c%"\n\n")).flatten := by
  induction ds generalizing b with
  | nil => simp [mdVisitL]
  | cons d ds ih =>
    have hl : U.lower c%"p" = c%"p" := by rw [U.lower_ascii _ (by decide)]; decide
    have he : b.ensureBlock = b := by
      unfold MdB.ensureBlock MdB.ensure
      rcases hb with ⟨h1, -⟩ | h1
      · simp [h1]
      · simp [h1]
    have hv : mdVisit U html pass b 0 false (.elem c%"p" ns attrs [.text d] false []) = (b.text U (mdEscapeText d)).ensure 2 := by
      rw [mdVisit]
      dsimp only
      simp only [hl, mdVisitL, mdVisit, he, mdAfterBlock, mdHeading]
      simp
    unfold MdB.text at hv
    obtain ⟨k1, k2, -⟩ := textF_at U _ d (Nat.le_refl _) b (by rcases hb with k | k; exact .inl k; exact .inr (by omega)) (hd d (by simp))
    obtain ⟨k3, k4⟩ := ensure_busy k2
    rw [List.map_cons, mdVisitL, hv, ih (fun x hx => hd x (by simp [hx])) _ (.inr k4)]
    rw [k3, k1]
    simp

theorem join_ends (p : Char → Bool) (ls : List Str) (hne : ls ≠ []) (h0 : ∀ l ∈ ls, l ≠ []) (h1 : ∀ l ∈ ls, ∀ y, l.head? = some y → p y = false)
    (h2 : ∀ l ∈ ls, ∀ y, l.getLast? = some y → p y = false) : join c%"\n\n" ls ≠ [] ∧ (∀ y, (join c%"\n\n" ls).head? = some y → p y = false) ∧
    ∀ y, (join c%"\n\n" ls).getLast? = some y → p y = false := by
  induction ls with
  | nil => exact absurd rfl hne
  | cons l ls ih =>
    cases ls with
    | nil => exact ⟨h0 l (by simp), h1 l (by simp), h2 l (by simp)⟩
    | cons a ls =>
      obtain ⟨k1, k2, k3⟩ := ih (by simp) (fun l h => h0 l (by simp [h])) (fun l h => h1 l (by simp [h])) (fun l h => h2 l (by simp [h]))
      have e : join c%"\n\n" (l :: a :: ls) = l ++ (c%"\n\n" ++ join c%"\n\n" (a :: ls)) := by simp [join]
      rw [e]
      refine ⟨by simp, fun y hy => ?_, fun y hy => ?_⟩
      · cases l with
        | nil => exact absurd rfl (h0 [] (by simp))
        | cons x l => exact h1 (x :: l) (by simp) y (by simpa using hy)
      · rw [List.getLast?_append, List.getLast?_append] at hy
        cases hg : (join c%"\n\n" (a :: ls)).getLast? with
        | none => exact absurd (List.getLast?_eq_none_iff.1 hg) k1
        | some z => rw [hg] at hy; exact k3 y (by rw [hg]; simpa using hy)

theorem strip_two (o : Str) (h1 : ∀ y, o.head? = some y → isFinishStrip y = false) (h2 : ∀ y, o.getLast? = some y → isFinishStrip y = false) (h0 : o ≠ []) :
    stripP isFinishStrip (o ++ c%"\n\n") = o := by
  have e : ∀ s : Str, s ≠ [] → (∀ y, s.head? = some y → isFinishStrip y = false) → lstripP isFinishStrip s = s := by
    intro s hs h
    cases s with
    | nil => exact absurd rfl hs
    | cons c t =>
      unfold lstripP
      rw [List.dropWhile_cons_of_neg (by simp [h c rfl])]
  unfold stripP
  have k1 : lstripP isFinishStrip (o ++ c%"\n\n") = o ++ c%"\n\n" := by
    refine e _ (by simp [h0]) fun y hy => ?_
    cases o with
    | nil => exact absurd rfl h0
    | cons c t => exact h1 y hy
  have k2 : rstripP isFinishStrip (o ++ c%"\n\n") = o := by
    unfold rstripP
    rw [List.reverse_append]
    have : isFinishStrip '\n' = true := by decide
    simp only [List.reverse_cons, List.reverse_nil, List.nil_append, List.cons_append, List.dropWhile_cons, this, if_true]
    have k3 := e o.reverse (by simpa using h0) (by simpa [List.head?_reverse] using h2)
    unfold lstripP at k3
    rw [k3, List.reverse_reverse]
  first
  | rw [k1, k2]
  | rw [k2]; exact e o h0 h1

/-- **C110 (partial), paragraphs.** A document of paragraphs of text is written as one line for each, with blank lines between them; no line begins anything but a
paragraph, and each reads as the words of its own text. The hypotheses and what is missing are those of `C110_text_partial`. -/
theorem C110_paragraphs_partial (U : Uni) (html : Node → Str) (pass : Bool) (ns : Option Str) (attrs : List (Str × Option Str)) (ds : List Str) (hd : ∀ d ∈ ds, words d ≠ [])
    (h1 : ∀ d ∈ ds, ∀ c ∈ d, isHtmlSpace c = true → MdBlank c) (h2 : ∀ d ∈ ds, ¬ Overlooked (join [' '] (words d))) :
    ∃ ls, toMarkdown U html pass (.doc (ds.map fun d => .elem c%"p" ns attrs [.text d] false [])) = join c%"\n\n" ls ∧
      ls.map mdUnescape = ds.map (fun d => join [' '] (words d)) ∧ ∀ l ∈ ls, '\n' ∉ l ∧ ¬ StartsBlock l := by
  refine ⟨ds.map fun d => mdLineOf U (mdEscapeText (d.dropWhile isHtmlSpace)), ?_, ?_, ?_⟩
  · unfold toMarkdown mdVisit MdB.finish
    rw [paragraphs_visit U html pass ns attrs ds hd (MdB.new 0) (.inl ⟨rfl, rfl⟩)]
    cases ds with
    | nil => rfl
    | cons d ds =>
      have hs : ∀ y, isHtmlSpace y = false → isFinishStrip y = false := by
        intro y h
        simp only [isHtmlSpace, Bool.or_eq_false_iff, decide_eq_false_iff_not] at h
        simp [isFinishStrip, h.1.1.1.1, h.1.1.1.2, h.1.1.2]
      rw [List.map_cons, join_append_flat, ← List.map_cons (f := fun d : Str => mdLineOf U (mdEscapeText (d.dropWhile isHtmlSpace)))]
      have hf : ∀ l ∈ (d :: ds).map fun d : Str => mdLineOf U (mdEscapeText (d.dropWhile isHtmlSpace)),
          l ≠ [] ∧ (∀ y, l.head? = some y → isFinishStrip y = false) ∧ ∀ y, l.getLast? = some y → isFinishStrip y = false := by
        intro l hl
        obtain ⟨x, hx, rfl⟩ := List.mem_map.1 hl
        obtain ⟨-, -, k1, k2, k3⟩ := line_facts U x (hd x hx)
        exact ⟨k1, fun y hy => hs y (k2 y hy), fun y hy => hs y (k3 y hy)⟩
      obtain ⟨k1, k2, k3⟩ := join_ends isFinishStrip _ (by simp) (fun l hl => (hf l hl).1) (fun l hl => (hf l hl).2.1) (fun l hl => (hf l hl).2.2)
      rw [show (MdB.new 0).out = [] from rfl, List.nil_append]
      exact strip_two _ k2 k3 k1
  · rw [List.map_map]
    exact List.map_congr_left fun d hx => (line_facts U d (hd d hx)).1
  · intro l hl
    obtain ⟨d, hx, rfl⟩ := List.mem_map.1 hl
    refine ⟨(line_facts U d (hd d hx)).2.1, ?_⟩
    have := C110_text_partial U html pass d (h1 d hx) (h2 d hx)
    rw [text_line] at this
    exact this

/-- **C110 (where it fails).** Each of these texts, alone in the document, is written as a line that begins a block: `## x`; the markers `-`, `1.` and `#`
with a line break after them, which is written as a space; the lone markers `-` and `1)`; and `--`, which makes a heading of a line above. -/
theorem C110_fails (html : Node → Str) (pass : Bool) : ∀ d ∈ [c%"## x", c%"-\nx", c%"1.\nx", c%"#\nx", c%"-", c%"1)", c%"--"],
    StartsBlock (toMarkdown Uni.sample html pass (.text d)) := by
  intro d hd
  simp only [List.mem_cons, List.not_mem_nil, or_false] at hd
  rcases hd with rfl | rfl | rfl | rfl | rfl | rfl | rfl
  · exact .heading 2 c%" x" rfl (by decide) (by decide) (by intro c hc; left; simpa using hc.symm)
  · exact .bullet '-' c%" x" rfl (by decide) (by intro c hc; left; simpa using hc.symm)
  · exact .ordered c%"1" '.' c%" x" rfl (by decide) (by decide) (by decide) (by decide) (by intro c hc; left; simpa using hc.symm)
  · exact .heading 1 c%" x" rfl (by decide) (by decide) (by intro c hc; left; simpa using hc.symm)
  · exact .bullet '-' [] rfl (by decide) (by intro c hc; simp at hc)
  · exact .ordered c%"1" ')' [] rfl (by decide) (by decide) (by decide) (by decide) (by intro c hc; simp at hc)
  · exact .underline '-' c%"--" [] rfl (by decide) (by decide) (by decide) (by simp)

/-- The same through elements: the escape looks at one text node, so a marker split between two is missed. -/
theorem C110_split_fails (html : Node → Str) (pass : Bool) :
    StartsBlock (toMarkdown Uni.sample html pass (.elem c%"p" none [] [.text c%"1", .elem c%"span" none [] [.text c%". x"] false []] false [])) := by
  have e : toMarkdown Uni.sample html pass (.elem c%"p" none [] [.text c%"1", .elem c%"span" none [] [.text c%". x"] false []] false []) = c%"1. x" := by
    cases pass <;> rfl
  rw [e]
  exact .ordered c%"1" '.' c%" x" rfl (by decide) (by decide) (by decide) (by decide) (by intro c hc; left; simpa using hc.symm)

/-- In a list item the escape is not tried at all: the item with the text `- b` is written `- - b`, an item that holds a list; so is `# b`. -/
theorem C110_item_fails (html : Node → Str) (pass : Bool) : ∀ d ∈ [c%"- b", c%"# b", c%"> b", c%"1. b"], ∃ r,
    toMarkdown Uni.sample html pass (.elem c%"ul" none [] [.elem c%"li" none [] [.text d] false []] false []) = c%"- " ++ r ∧ StartsBlock r := by
  intro d hd
  have e : ∀ d ∈ [c%"- b", c%"# b", c%"> b", c%"1. b"],
      toMarkdown Uni.sample html pass (.elem c%"ul" none [] [.elem c%"li" none [] [.text d] false []] false []) = c%"- " ++ d := by
    intro d hd
    simp only [List.mem_cons, List.not_mem_nil, or_false] at hd
    rcases hd with rfl | rfl | rfl | rfl <;> (cases pass <;> rfl)
  refine ⟨d, e d hd, ?_⟩
  simp only [List.mem_cons, List.not_mem_nil, or_false] at hd
  rcases hd with rfl | rfl | rfl | rfl
  · exact .bullet '-' c%" b" rfl (by decide) (by intro c hc; left; simpa using hc.symm)
  · exact .heading 1 c%" b" rfl (by decide) (by decide) (by intro c hc; left; simpa using hc.symm)
  · exact .quote c%" b" rfl
  · exact .ordered c%"1" '.' c%" b" rfl (by decide) (by decide) (by decide) (by decide) (by intro c hc; left; simpa using hc.symm)

-- The hypotheses are met by texts that begin like a block, and these are escaped.
example : ∀ c ∈ c%" - a # b", isHtmlSpace c = true → MdBlank c := by decide
example : ¬ Overlooked (join [' '] (words c%" - a # b")) := by
  rw [show join [' '] (words c%" - a # b") = c%"- a # b" by decide]
  rintro (⟨k, r, h1, h2, h3, -⟩ | h | ⟨ds, p, h1, h2, h3, -, -⟩)
  · cases k with
    | zero => omega
    | succ k => rw [List.replicate_succ, List.cons_append, List.cons.injEq] at h1; exact absurd h1.1 (by decide)
  · exact absurd h (by decide)
  · cases ds with
    | nil => simp at h3
    | cons a ds => rw [List.cons_append, List.cons.injEq] at h1; have := h2 a (by simp); rw [← h1.1] at this; exact absurd this (by decide)
example : toMarkdown Uni.sample (fun _ => []) false (.text c%" - a # b") = c%"\\- a # b" := by decide
example : toMarkdown Uni.sample (fun _ => []) false (.text c%"12) x") = c%"12\\) x" := by decide

end JH
