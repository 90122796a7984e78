import Verif.Model.Pretty
import Verif.Spec.Pretty
import Verif.Spec.Tree
import Verif.Spec.Events
import Verif.Lemmas.Entities
import Verif.Props.Serialize
import Verif.Props.UrlIdem
import Verif.Props.Stream

/-! Lemmas for C73 (pretty printing). -/
namespace JH
open Spec

/-! ### Words -/

section Words
variable {sp : Char → Bool}

theorem wordsOf_space (c : Char) (s : Str) (h : sp c = true) : splitWs sp [] (c :: s) = splitWs sp [] s := by
  rw [splitWs, if_pos h]; rfl

theorem words_lead (w s : Str) (h : ∀ c ∈ w, sp c = true) : splitWs sp [] (w ++ s) = splitWs sp [] s := by
  induction w with
  | nil => rfl
  | cons c w ih => rw [List.cons_append, wordsOf_space c _ (h c (by simp))]; exact ih fun x hx => h x (by simp [hx])

/-- A word boundary. -/
theorem words_sep (w : Str) (c d : Char) (s : Str) (hc : sp c = true) (hd : sp d = true) : splitWs sp w (c :: s) = splitWs sp w (d :: s) := by
  rw [splitWs, splitWs, if_pos hc, if_pos hd]

theorem words_trail (s w : Str) : ∀ acc : Str, (∀ c ∈ w, sp c = true) → splitWs sp acc (s ++ w) = splitWs sp acc s := by
  induction s with
  | nil =>
    intro acc h
    cases w with
    | nil => rfl
    | cons c w =>
      have hrest : splitWs sp [] w = [] := by
        have := words_lead w [] (sp := sp) (fun x hx => h x (by simp [hx]))
        rw [List.append_nil] at this
        rw [this]; rfl
      rw [List.nil_append, splitWs.eq_2, if_pos (h c (by simp)), hrest, splitWs.eq_1]
  | cons c s ih =>
    intro acc h
    rw [List.cons_append, splitWs, splitWs, ih [] h, ih (c :: acc) h]

theorem mem_takeWhile_true {p : Char → Bool} {s : Str} (c : Char) (h : c ∈ s.takeWhile p) : p c = true := by
  induction s with
  | nil => simp at h
  | cons x s ih =>
    rw [List.takeWhile_cons] at h
    split at h
    · rename_i hp
      rcases List.mem_cons.1 h with rfl | h
      · exact hp
      · exact ih h
    · simp at h

theorem dropWhile_split (p : Char → Bool) (s : Str) : ∃ w, s = w ++ s.dropWhile p ∧ ∀ c ∈ w, p c = true :=
  ⟨s.takeWhile p, (List.takeWhile_append_dropWhile).symm, fun c hc => mem_takeWhile_true c hc⟩

theorem lstripP_split (p : Char → Bool) (s : Str) : ∃ w, s = w ++ lstripP p s ∧ ∀ c ∈ w, p c = true := dropWhile_split p s

theorem rstripP_split (p : Char → Bool) (s : Str) : ∃ w, s = rstripP p s ++ w ∧ ∀ c ∈ w, p c = true := by
  obtain ⟨w, h1, h2⟩ := dropWhile_split p s.reverse
  refine ⟨w.reverse, ?_, fun c hc => h2 c (by simpa using hc)⟩
  have := congrArg List.reverse h1
  rw [List.reverse_reverse, List.reverse_append] at this
  exact this

theorem words_strip (p : Char → Bool) (hp : ∀ c, p c = true → sp c = true) (s : Str) : splitWs sp [] (stripP p s) = splitWs sp [] s := by
  obtain ⟨a, h1, h2⟩ := lstripP_split p s
  obtain ⟨b, h3, h4⟩ := rstripP_split p (lstripP p s)
  rw [stripP]
  have e1 := words_trail (rstripP p (lstripP p s)) b (sp := sp) [] fun c hc => hp c (h4 c hc)
  rw [← h3] at e1
  have e2 := words_lead a (lstripP p s) (sp := sp) fun c hc => hp c (h2 c hc)
  rw [← h1] at e2
  rw [e2, ← e1]

theorem strip_nil (p : Char → Bool) (s : Str) (h : stripP p s = []) : ∀ c ∈ s, p c = true := by
  obtain ⟨a, h1, h2⟩ := lstripP_split p s
  obtain ⟨b, h3, h4⟩ := rstripP_split p (lstripP p s)
  rw [stripP] at h
  rw [h] at h3
  intro c hc
  rw [h1, h3] at hc
  simp only [List.nil_append, List.mem_append] at hc
  exact hc.elim (h2 c) (h4 c)

theorem words_spaces (s : Str) (h : ∀ c ∈ s, sp c = true) : splitWs sp [] s = [] := by
  have := words_lead s [] h
  rw [List.append_nil] at this
  rw [this]; rfl

end Words

variable {U : Uni}

theorem sp_html (U : Uni) (c : Char) (h : isHtmlSpace c = true) : U.isSpace c = true := by
  simp only [isHtmlSpace, Bool.or_eq_true, decide_eq_true_eq] at h
  rcases h with (((rfl | rfl) | rfl) | rfl) | rfl <;> (rw [U.isSpace_ascii _ (by decide)]; decide)

theorem sp_fmt (U : Uni) (c : Char) (h : isFormattingSpace c = true) : U.isSpace c = true := by
  apply sp_html
  simp only [isFormattingSpace, Bool.or_eq_true, decide_eq_true_eq] at h
  simp only [isHtmlSpace, Bool.or_eq_true, decide_eq_true_eq]
  rcases h with ((rfl | rfl) | rfl) | rfl <;> simp

theorem sp_blank (U : Uni) : U.isSpace ' ' = true := sp_html U ' ' (by decide)
theorem sp_newline (U : Uni) : U.isSpace '\n' = true := sp_html U '\n' (by decide)

theorem blankStr_spaces {d : Str} (h : blankStr U d = true) : ∀ c ∈ d, U.isSpace c = true :=
  strip_nil _ _ (List.isEmpty_iff.1 h)

theorem words_normLoop (s : Str) : (∀ w saw, splitWs U.isSpace w (normLoop false saw s) = splitWs U.isSpace w s) ∧
    (∀ saw, splitWs U.isSpace [] (normLoop true saw s) = splitWs U.isSpace [] s) := by
  induction s with
  | nil => exact ⟨fun _ _ => rfl, fun _ => rfl⟩
  | cons c s ih =>
    obtain ⟨i1, i2⟩ := ih
    have hsp := sp_blank U
    refine ⟨fun w saw => ?_, fun saw => ?_⟩
    · rw [normLoop]
      split
      · rename_i hc
        subst hc
        rw [if_neg (by decide), splitWs, if_pos hsp, i2, splitWs, if_pos hsp]
      · split
        · rename_i hf
          have hc := sp_fmt U c hf
          rw [if_neg (by decide), splitWs, splitWs, if_pos hsp, if_pos hc, i2]
        · rw [splitWs, splitWs, i1, i1]
    · rw [normLoop]
      split
      · rename_i hc
        subst hc
        rw [if_pos rfl, wordsOf_space ' ' s hsp]
        split
        · exact i2 _
        · rw [wordsOf_space ' ' _ hsp]; exact i2 _
      · split
        · rename_i hf
          rw [if_pos rfl, wordsOf_space c s (sp_fmt U c hf)]
          exact i2 _
        · rw [splitWs, splitWs, i1, i1]

theorem words_norm (d : Str) : splitWs U.isSpace [] (normFormatting d) = splitWs U.isSpace [] d := by
  rw [normFormatting]
  split
  · rfl
  · dsimp only
    have h0 := (words_normLoop (U := U) d).1 [] false
    generalize normLoop false false d = n at h0 ⊢
    have h1 : splitWs U.isSpace [] (if d.head?.any isFormattingSpace && n.head? = some ' ' then n.drop 1 else n) = splitWs U.isSpace [] d := by
      split
      · rename_i h
        simp only [Bool.and_eq_true, decide_eq_true_eq] at h
        cases n with
        | nil => exact h0
        | cons c n =>
          simp only [List.head?_cons, Option.some.injEq] at h
          rw [h.2, wordsOf_space ' ' n (sp_blank U)] at h0
          exact h0
      · exact h0
    generalize (if d.head?.any isFormattingSpace && n.head? = some ' ' then n.drop 1 else n) = m at h1 ⊢
    split
    · rename_i h
      simp only [Bool.and_eq_true, decide_eq_true_eq] at h
      obtain ⟨ys, rfl⟩ := List.getLast?_eq_some_iff.1 h.2
      rw [List.dropLast_concat]
      rw [words_trail ys [' '] [] (by simp [sp_blank U])] at h1
      exact h1
    · exact h1

theorem words_collapseLoopU (s : Str) : (∀ w, splitWs U.isSpace w (collapseLoop false s) = splitWs U.isSpace w s) ∧
    splitWs U.isSpace [] (collapseLoop true s) = splitWs U.isSpace [] s := by
  induction s with
  | nil => exact ⟨fun _ => rfl, rfl⟩
  | cons c s ih =>
    obtain ⟨i1, i2⟩ := ih
    have hsp := sp_blank U
    refine ⟨fun w => ?_, ?_⟩
    · rw [collapseLoop]
      split
      · rename_i hc
        rw [if_neg (by decide), splitWs, splitWs, if_pos hsp, if_pos (sp_html U c hc), i2]
      · rw [splitWs, splitWs, i1, i1]
    · rw [collapseLoop]
      split
      · rename_i hc
        rw [if_pos rfl, wordsOf_space c s (sp_html U c hc)]
        exact i2
      · rw [splitWs, splitWs, i1, i1]

theorem words_collapse (d : Str) : splitWs U.isSpace [] (collapsePretty U d) = splitWs U.isSpace [] d := by
  rw [collapsePretty]
  split
  · rename_i h; rw [List.isEmpty_iff.1 h]
  · split
    · rw [words_strip (· = ' ') (fun c hc => by simp only [decide_eq_true_eq] at hc; rw [hc]; exact sp_blank U)]
      exact (words_collapseLoopU d).1 []
    · exact splitWs_join _ (sp_blank U) _ fun u hu => by
        have := splitWs_pieces U.isSpace d [] (by simp) u hu
        exact this

end JH
