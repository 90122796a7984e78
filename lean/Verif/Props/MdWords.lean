import Verif.Props.MdBlocks
import Verif.Spec.MdFlow
import Verif.Spec.Pretty
import Verif.Lemmas.Pretty
/-! C111: the Markdown of a tree has the words of its text. -/
namespace JH
open Spec

/-! ### Texts that stand for the same words, whatever stands around them -/

/-- `a` and `b` can stand for one another anywhere. -/
def Same (a b : Str) : Prop := ∀ acc z, splitWs isHtmlSpace acc (a ++ z) = splitWs isHtmlSpace acc (b ++ z)

theorem Same.refl (a : Str) : Same a a := fun _ _ => rfl
theorem Same.symm {a b : Str} (h : Same a b) : Same b a := fun x z => (h x z).symm
theorem Same.trans {a b c : Str} (h : Same a b) (k : Same b c) : Same a c := fun x z => (h x z).trans (k x z)

theorem Same.left {a b : Str} (h : Same a b) (x : Str) : Same (x ++ a) (x ++ b) := by
  intro acc z
  induction x generalizing acc with
  | nil => exact h acc z
  | cons c x ih =>
    simp only [List.cons_append, splitWs]
    simp only [List.append_assoc] at ih
    split
    · split <;> simp [ih]
    · simp [ih]

theorem Same.right {a b : Str} (h : Same a b) (x : Str) : Same (a ++ x) (b ++ x) := by
  intro acc z
  rw [List.append_assoc, List.append_assoc]
  exact h acc (x ++ z)

/-- White space after white space. -/
theorem same_ws {c : Char} (hc : isHtmlSpace c = true) (w : Str) (hw : ∀ x ∈ w, isHtmlSpace x = true) : Same (c :: w) [c] := by
  intro acc z
  have : ∀ w : Str, (∀ x ∈ w, isHtmlSpace x = true) → splitWs isHtmlSpace [] (w ++ z) = splitWs isHtmlSpace [] z := by
    intro w
    induction w with
    | nil => intro _; rfl
    | cons x w ih =>
      intro h
      rw [List.cons_append, splitWs, if_pos (h x (by simp))]
      exact ih fun y hy => h y (by simp [hy])
  simp only [List.cons_append, List.nil_append, splitWs, hc, if_true, this w hw]

theorem same_swap {c d : Char} (hc : isHtmlSpace c = true) (hd : isHtmlSpace d = true) : Same [c] [d] := by
  intro acc z
  simp only [List.cons_append, List.nil_append, splitWs, hc, hd, if_true]

/-- `a` and `b` can stand for one another at the start. -/
def SameF (a b : Str) : Prop := ∀ z, splitWs isHtmlSpace [] (a ++ z) = splitWs isHtmlSpace [] (b ++ z)

theorem SameF.right {a b : Str} (h : SameF a b) (x : Str) : SameF (a ++ x) (b ++ x) := by
  intro z
  rw [List.append_assoc, List.append_assoc]
  exact h (x ++ z)

theorem SameF.trans {a b c : Str} (h : SameF a b) (k : SameF b c) : SameF a c := fun z => (h z).trans (k z)
theorem SameF.symm {a b : Str} (h : SameF a b) : SameF b a := fun z => (h z).symm
theorem Same.first {a b : Str} (h : Same a b) : SameF a b := h []

/-- White space where a line begins. -/
theorem sameF_line {u : Str} (hu : u = [] ∨ ∃ v c, u = v ++ [c] ∧ isHtmlSpace c = true) (w : Str) (hw : ∀ x ∈ w, isHtmlSpace x = true) : SameF (u ++ w) u := by
  rcases hu with rfl | ⟨v, c, rfl, hc⟩
  · intro z
    rw [List.nil_append, List.nil_append]
    induction w with
    | nil => rfl
    | cons x w ih =>
      rw [List.cons_append, splitWs, if_pos (hw x (by simp))]
      exact ih fun y hy => hw y (by simp [hy])
  · rw [List.append_assoc]
    exact ((same_ws hc w hw).left v).first

/-! ### Collapsing -/

def mdSpc (p : Bool) : Str := if p then [' '] else []

theorem mdSpc_ws (p : Bool) : ∀ x ∈ mdSpc p, isHtmlSpace x = true := by cases p <;> simp [mdSpc]; decide

theorem same_collapse (d : Str) : ∀ p, Same (collapseTail p d ++ mdSpc (endsSpc p d)) (mdSpc p ++ d) := by
  induction d with
  | nil => intro p; simp [collapseTail, endsSpc]; exact Same.refl _
  | cons c t ih =>
    intro p
    rw [collapseTail, endsSpc]
    cases hc : isHtmlSpace c with
    | true =>
      rw [if_pos rfl]
      refine (ih true).trans ?_
      have h : Same (mdSpc true) (mdSpc p ++ [c]) := by
        cases p with
        | false => exact same_swap (by decide) hc
        | true => exact (same_ws (by decide) [c] (by simpa using hc)).symm
      have := h.right t
      simpa using this
    | false =>
      simp only [Bool.false_eq_true, if_false]
      have := (ih false).left ((if p then [' '] else []) ++ [c])
      simpa [mdSpc] using this

/-! ### The builder -/

theorem unescape_text (d y : Str) : mdUnescape (mdEscapeText d ++ y) = d ++ mdUnescape y := by
  induction d with
  | nil => rfl
  | cons c t ih => rw [mdEscapeText_cons, List.append_assoc, mdUnescape_escapeC, ih]; rfl

theorem unescape_line (U : Uni) (c : Char) (t : Str) (hc : isHtmlSpace c = false) (y : Str) :
    mdUnescape (mdLineOf U (mdEscapeText (c :: t)) ++ y) = collapseTail false (c :: t) ++ mdUnescape y := by
  unfold mdLineOf
  cases hl : mdLineStart U (mdEscapeText (c :: t)) with
  | none =>
    dsimp only
    rw [collapse_escape, unescape_text]
  | some p =>
    obtain ⟨r, rest⟩ := p
    dsimp only
    obtain ⟨w, d', h1, h2, -, -, h5, h6⟩ := mdLineStart_escape U c t hc r rest hl
    rw [List.append_assoc, h6, h2, collapse_escape, unescape_text, h1, collapseTail_append w d' h5, List.append_assoc]

/-- White space after a text is read as it is. -/
theorem unescape_snoc (a : Str) (c : Char) (hc : c ∈ c%" \t\n") : mdUnescape (a ++ [c]) = mdUnescape a ++ [c] := by
  have hp : asciiPunct c = false ∧ c ≠ '\\' ∧ c ≠ '&' ∧ c ≠ ';' := by
    simp only [List.mem_cons, List.not_mem_nil, or_false] at hc
    rcases hc with rfl | rfl | rfl <;> decide
  have h1 : mdUnescape [c] = [c] := by rw [mdUnescape_plain c [] hp.2.1 hp.2.2.1]; rfl
  fun_induction mdUnescape a with
  | case1 => exact h1
  | case2 x t hx ih => rw [List.cons_append, List.cons_append, mdUnescape_bs x _ hx, ih]; rfl
  | case3 x t hx ih => rw [List.cons_append, List.cons_append, mdUnescape, if_neg (by simp [hx]), ← List.cons_append, ih]; rfl
  | case4 t ih => simp [mdUnescape, ih]
  | case5 t ih => simp [mdUnescape, ih]
  | case6 x t n1 n2 n3 ih =>
    rw [List.cons_append, List.cons_append, ← ih]
    cases t with
    | nil =>
      by_cases hx : x = '\\'
      · subst hx; simp [mdUnescape, hp.1]
      · by_cases hx' : x = '&'
        · subst hx'; simp [mdUnescape]
        · exact mdUnescape_plain x _ hx hx'
    | cons u t =>
      have key : ∀ p t' : Str, t ++ [c] = p ++ ';' :: t' → ∃ t'', t = p ++ ';' :: t'' := by
        intro p t' e
        rcases List.eq_nil_or_concat t' with rfl | ⟨i, z, rfl⟩
        · have := congrArg List.getLast? e
          simp at this
          exact absurd this hp.2.2.2
        · rw [List.concat_eq_append, show p ++ ';' :: (i ++ [z]) = (p ++ ';' :: i) ++ [z] by simp] at e
          exact ⟨i, (List.append_inj' e rfl).1⟩
      rw [mdUnescape.eq_def]
      split
      · simp_all
      · simp_all
      · next t' e =>
        exfalso
        simp only [List.cons_append, List.cons.injEq] at e
        obtain ⟨t'', e2⟩ := key c%"mp" t' e.2.2
        exact n2 t'' e.1 (by rw [e.2.1, e2]; rfl)
      · next t' e =>
        exfalso
        simp only [List.cons_append, List.cons.injEq] at e
        obtain ⟨t'', e2⟩ := key c%"t" t' e.2.2
        exact n3 t'' e.1 (by rw [e.2.1, e2]; rfl)
      · simp_all

/-- A new line begins at the end of what is written. -/
structure AtLine (b : MdB) : Prop where
  state : (b.buf = [] ∧ b.nl = 0) ∨ (0 < b.nl ∧ ∃ r, b.buf = ['\n'] :: r)

/-- The text can be read on its own, whatever follows. -/
def Own (o : Str) : Prop := ∀ y, mdUnescape (o ++ y) = mdUnescape o ++ mdUnescape y

theorem unescape_plainS (s : Str) (hs : ∀ c ∈ s, c ≠ '\\' ∧ c ≠ '&') (y : Str) : mdUnescape (s ++ y) = s ++ mdUnescape y := by
  induction s with
  | nil => rfl
  | cons c s ih =>
    rw [List.cons_append, mdUnescape_plain c _ (hs c (by simp)).1 (hs c (by simp)).2, ih fun x hx => hs x (by simp [hx])]
    rfl

theorem unescape_blank_trail (w s : Str) (hw : ∀ c ∈ w, c ∈ c%" \t\n") : mdUnescape (s ++ w) = mdUnescape s ++ w := by
  induction w generalizing s with
  | nil => simp
  | cons c w ih =>
    rw [show s ++ c :: w = (s ++ [c]) ++ w by simp, ih _ fun x hx => hw x (by simp [hx]), unescape_snoc s c (hw c (by simp))]
    simp

theorem Own.plain {o : Str} (h : Own o) (s : Str) (hs : ∀ c ∈ s, c ≠ '\\' ∧ c ≠ '&') : mdUnescape (o ++ s) = mdUnescape o ++ s ∧ Own (o ++ s) := by
  have e : mdUnescape (o ++ s) = mdUnescape o ++ s := by
    have := unescape_plainS s hs []
    rw [List.append_nil] at this
    rw [h, this]; simp [mdUnescape]
  refine ⟨e, fun y => ?_⟩
  rw [e, List.append_assoc, h, unescape_plainS s hs, List.append_assoc]

/-- The line ends in the blank space of a mark. -/
structure Blank (b : MdB) : Prop where
  ne : b.buf ≠ []
  nl : b.nl = 0
  blank : b.endsBlank = true
  stripped : ∃ o w, b.newline1.out = o ++ ['\n'] ∧ b.out = o ++ w ∧ (∀ c ∈ w, c ∈ c%" \t\n") ∧ w ≠ [] ∧ Own o

/-- What the builder has written, with the space that is pending, reads as `f`; and it can be read on its own. -/
structure Reads (b : MdB) (f : Str) : Prop where
  own : Own b.out
  place : Busy b ∨ AtLine b ∨ Blank b
  same : SameF (mdUnescape b.out ++ mdSpc b.pend) f

theorem blank_chars {w : Str} (hw : ∀ c ∈ w, c ∈ c%" \t\n") : ∀ c ∈ w, isHtmlSpace c = true := by
  intro c hc
  have := hw c hc
  simp only [List.mem_cons, List.not_mem_nil, or_false] at this
  rcases this with rfl | rfl | rfl <;> decide

theorem AtLine.out {b : MdB} (h : AtLine b) : mdUnescape b.out = [] ∨ ∃ v c, mdUnescape b.out = v ++ [c] ∧ isHtmlSpace c = true := by
  rcases h.state with ⟨h1, -⟩ | ⟨-, r, h1⟩
  · exact .inl (by simp [MdB.out, h1, mdUnescape])
  · refine .inr ?_
    have h2 : b.out = r.reverse.flatten ++ ['\n'] := by simp [MdB.out, h1]
    rw [h2]
    exact ⟨_, _, unescape_snoc _ '\n' (by decide), by decide⟩

theorem Blank.out {b : MdB} (h : Blank b) : mdUnescape b.out = [] ∨ ∃ v c, mdUnescape b.out = v ++ [c] ∧ isHtmlSpace c = true := by
  obtain ⟨o, w, -, e, hw, hne, -⟩ := h.stripped
  refine .inr ?_
  rcases List.eq_nil_or_concat w with rfl | ⟨i, x, rfl⟩
  · exact absurd rfl hne
  · rw [List.concat_eq_append] at e hw
    rw [e, unescape_blank_trail _ _ hw]
    exact ⟨mdUnescape o ++ i, x, by simp, blank_chars hw x (by simp)⟩

/-- The Markdown of a text after a mark. -/
theorem textF_blank (U : Uni) (n : Nat) (d : Str) (hn : (mdEscapeText d).length ≤ n) (b : MdB) (h1 : b.buf ≠ []) (h2 : b.nl = 0) (h3 : b.endsBlank = true)
    (hd : d.dropWhile isHtmlSpace ≠ []) :
    (MdB.textF U n b (mdEscapeText d)).out = b.out ++ collapseTail false (mdEscapeText (d.dropWhile isHtmlSpace)) ∧
      Busy (MdB.textF U n b (mdEscapeText d)) ∧ (MdB.textF U n b (mdEscapeText d)).pend = endsSpc b.pend d := by
  induction d generalizing n b with
  | nil => exact absurd rfl hd
  | cons c t ih =>
    rw [mdEscapeText_cons] at hn ⊢
    cases hc : isHtmlSpace c with
    | true =>
      rw [isHtmlSpace_special c hc, List.singleton_append] at hn ⊢
      rw [List.dropWhile_cons_of_pos hc] at hd ⊢
      cases n with
      | zero => simp at hn
      | succ n =>
        rw [MdB.textF, if_pos hc, endsSpc, hc]
        exact ih n (by simpa using hn) { b with lead := b.lead || b.buf.isEmpty, pend := true } h1 h2 h3 hd
    | false =>
      rw [List.dropWhile_cons_of_neg (by simp [hc]), mdEscapeText_cons]
      have hf : b.flushText.buf = b.buf ∧ b.flushText.nl = 0 ∧ b.flushText.pend = false := by
        unfold MdB.flushText
        cases hp : b.pend with
        | false => simp [hp, h2]
        | true => simp [h3, h2]
      obtain ⟨hf1, hf2, hf3⟩ := hf
      obtain ⟨x, y, e, hx, hy⟩ := mdEscapeC_head c hc
      cases n with
      | zero => rw [e] at hn; simp at hn
      | succ n =>
        have hstep : MdB.textF U (n + 1) b (mdEscapeC c ++ mdEscapeText t) =
            MdB.textF U n { b.flushText with buf := [x] :: b.flushText.buf, nl := 0 } (y ++ mdEscapeText t) := by
          rw [e, List.cons_append, MdB.textF]
          rw [if_neg (by simp [hx])]
          dsimp only
          rw [if_neg (by simp [hf1, hf2, h1])]
        have hbusy : Busy { b.flushText with buf := [x] :: b.flushText.buf, nl := 0 } := ⟨by simp, rfl, by simp [MdB.endsBlank, isBlank_of x hx]⟩
        rw [hstep]
        refine ⟨?_, textF_stays U n _ _ hbusy, ?_⟩
        · rw [textF_busy U n _ (by rw [e] at hn; simpa using hn) _ hbusy]
          rw [e]
          simp [MdB.out, collapseTail, hx, hf3, hf1]
        · rw [textF_pend U n _ (by rw [e] at hn; simpa using hn) _ hbusy, endsSpc_append, endsSpc, hc]
          dsimp only
          rw [hf3, endsSpc_all y hy, endsSpc_escape]

theorem reads_text {U : Uni} {b : MdB} {f : Str} (h : Reads b f) (d : Str) : Reads (b.text U (mdEscapeText d)) (f ++ d) := by
  obtain ⟨own, place, same⟩ := h
  unfold MdB.text
  rcases place with hb | hb
  · have h1 := textF_busy U _ (mdEscapeText d) (Nat.le_refl _) b hb
    rw [collapse_escape] at h1
    have h2 := textF_pend U _ (mdEscapeText d) (Nat.le_refl _) b hb
    rw [endsSpc_escape] at h2
    have h3 : mdUnescape (b.out ++ mdEscapeText (collapseTail b.pend d)) = mdUnescape b.out ++ collapseTail b.pend d := by
      rw [own]
      have := unescape_text (collapseTail b.pend d) []
      rw [List.append_nil] at this
      rw [this]; simp [mdUnescape]
    refine ⟨fun y => ?_, .inl (textF_stays U _ _ b hb), ?_⟩
    · rw [h1, h3, List.append_assoc, own, unescape_text, List.append_assoc]
    · rw [h1, h2, h3, List.append_assoc]
      refine ((same_collapse d b.pend).left (mdUnescape b.out)).first.trans ?_
      rw [← List.append_assoc]
      exact same.right d
  · have hu : mdUnescape b.out = [] ∨ ∃ v c, mdUnescape b.out = v ++ [c] ∧ isHtmlSpace c = true := by
      rcases hb with hb | hb
      · exact hb.out
      · exact hb.out
    have same' : SameF (mdUnescape b.out) f := (sameF_line hu (mdSpc b.pend) (mdSpc_ws _)).symm.trans same
    by_cases hw : d.dropWhile isHtmlSpace = []
    · have hall : ∀ x ∈ d, isHtmlSpace x = true := by
        have e := List.takeWhile_append_dropWhile (p := isHtmlSpace) (l := d)
        rw [hw, List.append_nil] at e
        intro x hx
        rw [← e] at hx
        exact List.all_eq_true.1 List.all_takeWhile x hx
      have h1 : ∀ (n : Nat) (d : Str) (b : MdB), (∀ x ∈ d, isHtmlSpace x = true) → (MdB.textF U n b (mdEscapeText d)).buf = b.buf ∧
          (MdB.textF U n b (mdEscapeText d)).nl = b.nl := by
        intro n
        induction n with
        | zero => intro d b _; exact ⟨rfl, rfl⟩
        | succ n ih =>
          intro d b hd
          cases d with
          | nil => exact ⟨rfl, rfl⟩
          | cons c t =>
            rw [mdEscapeText_cons, isHtmlSpace_special c (hd c (by simp)), List.singleton_append, MdB.textF, if_pos (hd c (by simp))]
            exact ih t { b with lead := b.lead || b.buf.isEmpty, pend := true } fun x hx => hd x (by simp [hx])
      obtain ⟨h2, h3⟩ := h1 (mdEscapeText d).length d b hall
      have h4 : (MdB.textF U (mdEscapeText d).length b (mdEscapeText d)).out = b.out := by simp [MdB.out, h2]
      refine ⟨fun y => by rw [h4]; exact own y, .inr ?_, ?_⟩
      · rcases hb with hb | hb
        · exact .inl ⟨by rw [h2, h3]; exact hb.state⟩
        · refine .inr ⟨by rw [h2]; exact hb.ne, by rw [h3]; exact hb.nl, by unfold MdB.endsBlank; rw [h2]; exact hb.blank, ?_⟩
          obtain ⟨o, w, e1, e2, e3⟩ := hb.stripped
          refine ⟨o, w, ?_, by rw [h4]; exact e2, e3⟩
          rw [← e1]
          simp [MdB.newline1, MdB.out, h2]
      rw [h4]
      refine (sameF_line hu _ (mdSpc_ws _)).trans ?_
      refine (sameF_line hu d hall).symm.trans ?_
      exact same'.right d
    · obtain ⟨w, c, t, e, hws, hc⟩ : ∃ w c t, d = w ++ c :: t ∧ (∀ x ∈ w, isHtmlSpace x = true) ∧ isHtmlSpace c = false := by
        cases hd : d.dropWhile isHtmlSpace with
        | nil => exact absurd hd hw
        | cons c t =>
          refine ⟨d.takeWhile isHtmlSpace, c, t, by rw [← hd, List.takeWhile_append_dropWhile], fun x hx => List.all_eq_true.1 List.all_takeWhile x hx, ?_⟩
          have := List.head?_dropWhile_not isHtmlSpace d
          rw [hd] at this
          simpa using this
      have hdw : d.dropWhile isHtmlSpace = c :: t := by
        rw [e, List.dropWhile_append_of_pos hws, List.dropWhile_cons_of_neg (by simp [hc])]
      obtain ⟨L, k1, k2, k3, k6⟩ : ∃ L, (MdB.textF U (mdEscapeText d).length b (mdEscapeText d)).out = b.out ++ L ∧
          Busy (MdB.textF U (mdEscapeText d).length b (mdEscapeText d)) ∧
          (MdB.textF U (mdEscapeText d).length b (mdEscapeText d)).pend = endsSpc b.pend d ∧ ∀ y, mdUnescape (L ++ y) = collapseTail false (c :: t) ++ mdUnescape y := by
        rcases hb with hb | hb
        · have hne : words d ≠ [] := by
            have : ∀ w : Str, (∀ x ∈ w, isHtmlSpace x = true) → words (w ++ c :: t) ≠ [] := by
              intro w
              induction w with
              | nil => intro _; rw [List.nil_append, words_cons c t (by rw [← ws_eq]; exact hc)]; simp
              | cons x w ih =>
                intro h
                rw [List.cons_append, words_ws x _ (by rw [← ws_eq]; exact h x (by simp))]
                exact ih fun y hy => h y (by simp [hy])
            rw [e]; exact this w hws
          obtain ⟨k1, k2, k3⟩ := textF_at U _ d (Nat.le_refl _) b (by
            rcases hb.state with k | ⟨k, -⟩
            · exact .inl k
            · exact .inr k) hne
          rw [hdw] at k1
          exact ⟨_, k1, k2, k3, unescape_line U c t hc⟩
        · obtain ⟨k1, k2, k3⟩ := textF_blank U _ d (Nat.le_refl _) b hb.ne hb.nl hb.blank (by rw [hdw]; simp)
          rw [hdw, collapse_escape] at k1
          exact ⟨_, k1, k2, k3, unescape_text _⟩
      have k4 : endsSpc b.pend d = endsSpc false (c :: t) := by
        rw [e, endsSpc_append]; rfl
      have k5 : mdUnescape (b.out ++ L) = mdUnescape b.out ++ collapseTail false (c :: t) := by
        rw [own]
        have := k6 []
        rw [List.append_nil] at this
        rw [this]; simp [mdUnescape]
      refine ⟨fun y => ?_, .inl k2, ?_⟩
      · rw [k1, k5, List.append_assoc, own, k6, List.append_assoc]
      · rw [k1, k3, k4, k5, List.append_assoc]
        refine ((same_collapse (c :: t) false).left (mdUnescape b.out)).first.trans ?_
        rw [e]
        refine SameF.trans (b := mdUnescape b.out ++ w ++ (c :: t)) ?_ ?_
        · exact ((sameF_line hu w hws).symm).right (c :: t)
        · rw [← List.append_assoc]
          exact (same'.right w).right (c :: t)

theorem newline_atLine (b : MdB) : AtLine b.newline1 := by
  refine ⟨.inr ⟨?_, _, rfl⟩⟩
  unfold MdB.newline1
  dsimp only
  split <;> omega

theorem reads_newline {b : MdB} {f : Str} (h : Reads b f) : Reads b.newline1 (f ++ ['\n']) := by
  obtain ⟨own, place, same⟩ := h
  obtain ⟨o, w, h1, h4, h5, ho⟩ : ∃ o w, b.newline1.out = o ++ ['\n'] ∧ b.out = o ++ w ∧ (∀ c ∈ w, c ∈ c%" \t\n") ∧ Own o := by
    rcases place with hb | hb | hb
    · obtain ⟨l, r, e1, e2⟩ := rstrip_busy hb
      exact ⟨b.out, [], by simp [MdB.newline1, MdB.out, e1, e2], by simp, by simp, own⟩
    · refine ⟨b.out, [], ?_, by simp, by simp, own⟩
      rcases hb.state with ⟨k, -⟩ | ⟨-, r', k⟩
      · simp [MdB.newline1, MdB.out, k]
      · simp [MdB.newline1, MdB.out, k, show rstripP isBlank ['\n'] = ['\n'] by decide]
    · obtain ⟨o, w, e1, e2, e3, -, e4⟩ := hb.stripped
      exact ⟨o, w, e1, e2, e3, e4⟩
  obtain ⟨h6, h7⟩ := ho.plain ['\n'] (by decide)
  refine ⟨by rw [h1]; exact h7, .inr (.inl (newline_atLine b)), ?_⟩
  rw [h1, h6]
  refine SameF.trans ?_ (same.right ['\n'])
  rw [h4, unescape_blank_trail w o h5, show mdSpc b.newline1.pend = [] from rfl, List.append_nil, List.append_assoc, List.append_assoc]
  refine (Same.left ?_ _).first
  have : ∀ v : Str, (∀ c ∈ v, isHtmlSpace c = true) → Same ['\n'] (v ++ ['\n']) := by
    intro v hv
    cases v with
    | nil => exact Same.refl _
    | cons x v =>
      refine (same_swap (by decide) (hv x (by simp))).trans (same_ws (hv x (by simp)) (v ++ ['\n']) ?_).symm
      intro y hy
      rcases List.mem_append.1 hy with k | k
      · exact hv y (by simp [k])
      · simp only [List.mem_singleton] at k; subst k; decide
  have := this (w ++ mdSpc b.pend) (by
    intro c hc
    rcases List.mem_append.1 hc with k | k
    · exact blank_chars h5 c k
    · exact mdSpc_ws _ c k)
  rw [List.append_assoc] at this
  exact this

/-- Where a line begins, one more line break is nothing. -/
theorem reads_absorb {b : MdB} {f : Str} (h : Reads b f) (ha : AtLine b) : Reads b (f ++ ['\n']) := by
  obtain ⟨own, place, same⟩ := h
  refine ⟨own, place, ?_⟩
  refine SameF.trans ?_ (same.right ['\n'])
  rw [List.append_assoc]
  refine (sameF_line (ha.out) _ (mdSpc_ws _)).trans (sameF_line (ha.out) _ ?_).symm
  intro x hx
  rcases List.mem_append.1 hx with k | k
  · exact mdSpc_ws _ x k
  · simp only [List.mem_singleton] at k; subst k; decide

theorem Reads.congr {b : MdB} {f g : Str} (h : Reads b f) (k : SameF f g) : Reads b g := ⟨h.own, h.place, h.same.trans k⟩

theorem ensure_atLine {b : MdB} {f : Str} (h : Reads b f) : AtLine (b.ensure 2) := by
  unfold MdB.ensure
  split
  · dsimp only
    split <;> exact newline_atLine _
  · next hn =>
    rcases h.place with hb | hb | hb
    · have := hb.nl; omega
    · exact hb
    · have := hb.nl; omega

theorem reads_ensure {b : MdB} {f : Str} (h : Reads b f) : Reads (b.ensure 2) (f ++ ['\n']) := by
  by_cases hn : b.nl < 2
  · unfold MdB.ensure
    rw [if_pos hn]
    have k1 := reads_newline h
    dsimp only
    split
    · refine (reads_newline k1).congr ?_
      rw [List.append_assoc]
      exact ((same_ws (by decide) ['\n'] (by decide)).left f).first
    · exact k1
  · have ha := ensure_atLine h
    have e : b.ensure 2 = b := by unfold MdB.ensure; rw [if_neg hn]
    rw [e] at ha ⊢
    exact reads_absorb h ha

theorem block_atLine {b : MdB} {f : Str} (h : Reads b f) : AtLine b.ensureBlock := by
  unfold MdB.ensureBlock
  split
  · next he =>
    rcases h.place with hb | hb | hb
    · exact absurd (by simpa using he) hb.ne
    · exact hb
    · exact absurd (by simpa using he) hb.ne
  · exact ensure_atLine h

theorem reads_block {b : MdB} {f : Str} (h : Reads b f) : Reads b.ensureBlock (f ++ ['\n']) := by
  have ha := block_atLine h
  unfold MdB.ensureBlock at ha ⊢
  split
  · next he => rw [if_pos he] at ha; exact reads_absorb h ha
  · exact reads_ensure h

/-! ### Marks -/

/-- A segment without a line break, where no space is pending or none is written. -/
theorem raw_eq (b : MdB) (x : Char) (s : Str) (h1 : x ≠ '`') (h2 : '\n' ∉ x :: s) (h3 : b.pend = false ∨ b.buf = [] ∨ b.nl ≠ 0) :
    b.raw (x :: s) = { b with pend := false, buf := (x :: s) :: b.buf, nl := 0 } := by
  have hf : b.flushRaw x = { b with pend := false } := by
    unfold MdB.flushRaw
    cases hp : b.pend with
    | false => rw [if_neg (by simp)]; cases b; simp_all
    | true =>
      rcases h3 with h | h | h
      · rw [hp] at h; cases h
      · simp [h]
      · simp [h]
  unfold MdB.raw
  dsimp only
  rw [hf]
  dsimp only
  rw [if_neg (by simpa using h2), if_neg (by simp [h1])]

/-- After a mark and the space behind it. -/
theorem reads_marked {b : MdB} {f : Str} (h : Reads b f) (ha : AtLine b) (b' : MdB) (k q : Str) (r : List Str) (e1 : b'.buf = (k ++ [' ']) :: r)
    (e2 : r.reverse.flatten ++ k = b.out ++ q) (e3 : b'.nl = 0) (e4 : b'.pend = false) (hq : ∀ c ∈ q, c ≠ '\\' ∧ c ≠ '&')
    (hk : ∀ y, k.getLast? = some y → isBlank y = false) : Reads b' (f ++ q ++ [' ']) := by
  have hout : b'.out = (b.out ++ q) ++ [' '] := by
    rw [← e2]; simp [MdB.out, e1]
  obtain ⟨h1, h2⟩ := h.own.plain q hq
  obtain ⟨h3, h4⟩ := h2.plain [' '] (by decide)
  have hs : rstripP isBlank (k ++ [' ']) = k := by
    unfold rstripP
    rw [List.reverse_append]
    simp only [List.reverse_cons, List.reverse_nil, List.nil_append, List.cons_append, List.dropWhile_cons, show isBlank ' ' = true by decide, if_true]
    cases hr : k.reverse with
    | nil => have : k = [] := by simpa using hr
             simp [this]
    | cons z u =>
      have : k = u.reverse ++ [z] := by rw [← List.reverse_reverse k, hr]; simp
      rw [List.dropWhile_cons_of_neg (by rw [hk z (by rw [this]; simp)]; simp), ← hr, List.reverse_reverse]
  refine ⟨by rw [hout]; exact h4, .inr (.inr ⟨by rw [e1]; simp, e3, by simp [MdB.endsBlank, e1, show isBlank ' ' = true by decide], ?_⟩), ?_⟩
  · refine ⟨b.out ++ q, [' '], ?_, hout, by decide, by simp, h2⟩
    rw [← e2]
    simp [MdB.newline1, MdB.out, e1, hs]
  · rw [hout, h3, h1, e4, show mdSpc false = [] from rfl, List.append_nil, List.append_assoc, List.append_assoc]
    exact ((sameF_line ha.out (mdSpc b.pend) (mdSpc_ws _)).symm.trans h.same).right (q ++ [' '])

theorem atLine_raw {b : MdB} (ha : AtLine b) : b.pend = false ∨ b.buf = [] ∨ b.nl ≠ 0 := by
  rcases ha.state with ⟨k, -⟩ | ⟨k, -⟩
  · exact .inr (.inl k)
  · exact .inr (.inr (by omega))

theorem reads_heading {b : MdB} {f : Str} (h : Reads b f) (ha : AtLine b) (k : Nat) (hk : 0 < k) :
    Reads ((b.raw (List.replicate k '#')).raw [' ']) (f ++ List.replicate k '#' ++ [' ']) := by
  obtain ⟨m, rfl⟩ : ∃ m, k = m + 1 := ⟨k - 1, by omega⟩
  have hm : ∀ c ∈ List.replicate (m + 1) '#', c = '#' := fun c hc => List.eq_of_mem_replicate hc
  have e : (b.raw (List.replicate (m + 1) '#')).raw [' '] = { b with pend := false, buf := [' '] :: List.replicate (m + 1) '#' :: b.buf, nl := 0 } := by
    rw [List.replicate_succ] at hm ⊢
    rw [raw_eq b '#' _ (by decide) (fun hn => absurd (hm _ hn) (by decide)) (atLine_raw ha), raw_eq _ ' ' [] (by decide) (by decide) (.inl rfl)]
  rw [e]
  exact reads_marked h ha _ [] (List.replicate (m + 1) '#') (List.replicate (m + 1) '#' :: b.buf) rfl (by simp [MdB.out]) rfl rfl
    (fun c hc => by rw [hm c hc]; decide) (by simp)

theorem reads_rule {b : MdB} {f : Str} (h : Reads b f) (ha : AtLine b) : Reads (b.raw c%"---") (f ++ c%"---") := by
  rw [raw_eq b '-' c%"--" (by decide) (by decide) (atLine_raw ha)]
  obtain ⟨h1, h2⟩ := h.own.plain c%"---" (by decide)
  have hout : ({ b with pend := false, buf := c%"---" :: b.buf, nl := 0 } : MdB).out = b.out ++ c%"---" := by simp [MdB.out]
  refine ⟨by rw [hout]; exact h2, .inl ⟨by simp, rfl, by simp [MdB.endsBlank]; decide⟩, ?_⟩
  rw [hout, h1]
  dsimp only
  rw [show mdSpc false = [] from rfl, List.append_nil]
  exact ((sameF_line ha.out (mdSpc b.pend) (mdSpc_ws _)).symm.trans h.same).right _

/-- The mark of an item, without its space. -/
def itemMark (ordered : Bool) (i : Nat) : Str := if ordered then natDigits i ++ ['.'] else ['-']

theorem itemMark_chars (ordered : Bool) (i : Nat) : ∀ c ∈ itemMark ordered i, c = '.' ∨ c = '-' ∨ c.isDigit = true := by
  intro c hc
  unfold itemMark at hc
  split at hc
  · rcases List.mem_append.1 hc with k | k
    · exact .inr (.inr (Nat.isDigit_of_mem_toDigits (b := 10) (by omega) (by omega) k))
    · exact .inl (by simpa using k)
  · exact .inr (.inl (by simpa using hc))

theorem reads_item {b : MdB} {f : Str} (h : Reads b (f ++ ['\n'])) (ha : AtLine b) (ld i : Nat) (ordered : Bool) :
    Reads ((b.raw (List.replicate ld c%"  ").flatten).raw (if ordered then natDigits i ++ c%". " else c%"- "))
      (f ++ (['\n'] ++ (if ordered then Nat.toDigits 10 i ++ c%". " else c%"- "))) := by
  have hmark : (if ordered then natDigits i ++ c%". " else c%"- ") = itemMark ordered i ++ [' '] := by unfold itemMark; cases ordered <;> simp
  rw [show Nat.toDigits 10 i = natDigits i from rfl, hmark]
  have hch := itemMark_chars ordered i
  have hlast : ∀ y, (itemMark ordered i).getLast? = some y → isBlank y = false := by
    intro y hy
    unfold itemMark at hy
    cases ordered <;> simp at hy <;> (subst hy; decide)
  have hnot : ∀ c ∈ itemMark ordered i, c ≠ '\\' ∧ c ≠ '&' ∧ c ≠ '`' ∧ c ≠ '\n' := by
    intro c hc
    rcases hch c hc with rfl | rfl | k
    · decide
    · decide
    · refine ⟨?_, ?_, ?_, ?_⟩ <;> (rintro rfl; revert k; decide)
  have hne : itemMark ordered i ≠ [] := by unfold itemMark; cases ordered <;> simp
  have hraw : ∀ b1 : MdB, (b1.pend = false ∨ b1.buf = [] ∨ b1.nl ≠ 0) → b1.raw (itemMark ordered i ++ [' ']) =
      { b1 with pend := false, buf := (itemMark ordered i ++ [' ']) :: b1.buf, nl := 0 } := by
    intro b1 hb1
    cases e : itemMark ordered i with
    | nil => exact absurd e hne
    | cons x s =>
      rw [e] at hnot
      refine raw_eq b1 x _ (hnot x (by simp)).2.2.1 ?_ hb1
      intro hn
      rcases List.mem_append.1 (show '\n' ∈ (x :: s) ++ [' '] from hn) with k | k
      · exact (hnot _ k).2.2.2 rfl
      · exact absurd k (by decide)
  have hind : ∀ c ∈ (List.replicate ld c%"  ").flatten, c = ' ' := by
    intro c hc
    obtain ⟨l, hl, hc⟩ := List.mem_flatten.1 hc
    rw [List.eq_of_mem_replicate hl] at hc
    simpa using hc
  generalize (List.replicate ld c%"  ").flatten = ind at hind ⊢
  have hq : ∀ c ∈ ind ++ itemMark ordered i, c ≠ '\\' ∧ c ≠ '&' := by
    intro c hc
    rcases List.mem_append.1 hc with k | k
    · rw [hind c k]; decide
    · exact ⟨(hnot c k).1, (hnot c k).2.1⟩
  have hR : Reads ((b.raw ind).raw (itemMark ordered i ++ [' '])) (f ++ ['\n'] ++ (ind ++ itemMark ordered i) ++ [' ']) := by
    cases ind with
    | nil =>
      rw [show b.raw [] = b from rfl, hraw b (atLine_raw ha)]
      exact reads_marked h ha _ (itemMark ordered i) ([] ++ itemMark ordered i) b.buf rfl (by simp [MdB.out]) rfl rfl hq hlast
    | cons x s =>
      have hx := hind x (by simp)
      subst hx
      rw [raw_eq b ' ' s (by decide) (fun hn => absurd (hind _ hn) (by decide)) (atLine_raw ha), hraw _ (.inl rfl)]
      exact reads_marked h ha _ (itemMark ordered i) ((' ' :: s) ++ itemMark ordered i) ((' ' :: s) :: b.buf) rfl (by simp [MdB.out]) rfl rfl hq hlast
  refine hR.congr ?_
  have h1 : Same (['\n'] ++ ind) ['\n'] := same_ws (by decide) ind fun c hc => by rw [hind c hc]; decide
  have h2 := ((h1.right (itemMark ordered i ++ [' '])).left f).first
  simpa using h2

/-! ### Emphasis -/

/-- `f` is `core` between white space. -/
structure CoreOf (f w core trail : Str) : Prop where
  eq : f = w ++ core ++ trail
  lead : ∀ c ∈ w, isHtmlSpace c = true
  trail : ∀ c ∈ trail, isHtmlSpace c = true
  head : ∃ c t, core = c :: t ∧ isHtmlSpace c = false
  last : ∃ i x, core = i ++ [x] ∧ isHtmlSpace x = false

theorem core_split (d : Str) : (∀ c ∈ d, isHtmlSpace c = true) ∨ ∃ w core trail, CoreOf d w core trail := by
  have e0 := List.takeWhile_append_dropWhile (p := isHtmlSpace) (l := d)
  have hw : ∀ c ∈ d.takeWhile isHtmlSpace, isHtmlSpace c = true := fun x hx => List.all_eq_true.1 List.all_takeWhile x hx
  cases hd : d.dropWhile isHtmlSpace with
  | nil =>
    rw [hd, List.append_nil] at e0
    exact .inl (by rw [← e0]; exact hw)
  | cons c t =>
    refine .inr ?_
    have hc : isHtmlSpace c = false := by
      have := List.head?_dropWhile_not isHtmlSpace d
      rw [hd] at this
      simpa using this
    obtain ⟨u, h1, h2⟩ := rstrip_split isHtmlSpace (c :: t)
    have h3 : ∀ y, (rstripP isHtmlSpace (c :: t)).getLast? = some y → isHtmlSpace y = false := by
      intro y hy
      unfold rstripP at hy
      rw [List.getLast?_reverse] at hy
      have := List.head?_dropWhile_not isHtmlSpace (c :: t).reverse
      rw [hy] at this
      simpa using this
    generalize rstripP isHtmlSpace (c :: t) = core at h1 h3
    cases core with
    | nil =>
      rw [List.nil_append] at h1
      rw [h2 c (by rw [← h1]; simp)] at hc; cases hc
    | cons x s =>
      rw [List.cons_append, List.cons.injEq] at h1
      obtain ⟨rfl, h1⟩ := h1
      refine ⟨d.takeWhile isHtmlSpace, c :: s, u, ?_, hw, h2, ⟨c, s, rfl, hc⟩, ?_⟩
      · rw [List.append_assoc, List.cons_append, ← h1, ← hd, e0]
      · rcases List.eq_nil_or_concat (c :: s) with k | ⟨i, y, k⟩
        · cases k
        · rw [List.concat_eq_append] at k
          exact ⟨i, y, k, h3 y (by rw [k]; simp)⟩

theorem CoreOf.strip {f w core trail : Str} (h : CoreOf f w core trail) : stripP isHtmlSpace f = core ∧ f.takeWhile isHtmlSpace = w ∧
    (f.reverse.takeWhile isHtmlSpace).reverse = trail ∧ core ≠ [] := by
  obtain ⟨e, h1, h2, ⟨c, t, h3, h4⟩, i, x, h5, h6⟩ := h
  have e1 : f = w ++ c :: (t ++ trail) := by rw [e, h3]; simp
  have e2 : f.reverse = trail.reverse ++ x :: (i.reverse ++ w.reverse) := by rw [e, h5]; simp
  have h2' : ∀ c ∈ trail.reverse, isHtmlSpace c = true := by simpa using h2
  refine ⟨?_, ?_, ?_, by rw [h3]; simp⟩
  · unfold stripP lstripP rstripP
    rw [e1, List.dropWhile_append_of_pos h1, List.dropWhile_cons_of_neg (by simp [h4]), ← List.cons_append, ← h3, List.reverse_append,
      List.dropWhile_append_of_pos h2', h5, List.reverse_append]
    simp [h6]
  · rw [e1, List.takeWhile_append_of_pos h1, List.takeWhile_cons_of_neg (by simp [h4]), List.append_nil]
  · rw [e2, List.takeWhile_append_of_pos h2', List.takeWhile_cons_of_neg (by simp [h6]), List.append_nil, List.reverse_reverse]

theorem CoreOf.around {f w core trail : Str} (h : CoreOf f w core trail) (m : Str) : Spec.around m f = w ++ m ++ core ++ m ++ trail := by
  obtain ⟨h1, h2, h3, h4⟩ := h.strip
  unfold Spec.around
  dsimp only
  rw [h1, if_neg h4, h2, h3]

theorem around_ws (m f : Str) (h : ∀ c ∈ f, isHtmlSpace c = true) : Spec.around m f = f := by
  have : stripP isHtmlSpace f = [] := by
    unfold stripP lstripP rstripP
    have : f.dropWhile isHtmlSpace = [] := by
      have := List.dropWhile_append_of_pos (l₂ := []) h
      simpa using this
    rw [this]; rfl
  unfold Spec.around
  dsimp only
  rw [if_pos this]

theorem textF_white (U : Uni) (n : Nat) : ∀ (d : Str), d.length ≤ n → ∀ (b : MdB), (∀ x ∈ d, isHtmlSpace x = true) → MdB.textF U n b (mdEscapeText d) =
    { b with lead := b.lead || (b.buf.isEmpty && !d.isEmpty), pend := b.pend || !d.isEmpty } := by
  induction n with
  | zero =>
    intro d hn b hd
    have : d = [] := by simpa using hn
    subst this
    cases b; simp [MdB.textF]
  | succ n ih =>
    intro d hn b hd
    cases d with
    | nil => cases b; simp [MdB.textF, mdEscapeText]
    | cons c t =>
      rw [mdEscapeText_cons, isHtmlSpace_special c (hd c (by simp)), List.singleton_append, MdB.textF, if_pos (hd c (by simp)),
        ih t (by simpa using hn) _ fun x hx => hd x (by simp [hx])]
      cases b
      simp only [MdB.mk.injEq, true_and]
      refine ⟨?_, ?_⟩
      · simp [Bool.or_assoc]
        rename_i bf _ _ _ _
        cases bf <;> simp
      · simp

theorem textF_leadKeep (U : Uni) (n : Nat) : ∀ (s : Str) (b : MdB), b.buf ≠ [] → (MdB.textF U n b s).lead = b.lead := by
  induction n with
  | zero => intro s b _; rfl
  | succ n ih =>
    intro s b hb
    cases s with
    | nil => rfl
    | cons c t =>
      rw [MdB.textF]
      split
      · refine (ih t { b with lead := b.lead || b.buf.isEmpty, pend := true } hb).trans ?_
        have : b.buf.isEmpty = false := by simpa using hb
        simp [this]
      · have hl : b.flushText.lead = b.lead := by unfold MdB.flushText; split <;> rfl
        dsimp only
        split
        · rw [ih _ _ (by simp)]; exact hl
        · rw [ih _ _ (by simp)]; exact hl

theorem textF_lead (U : Uni) (n : Nat) (w : Str) (c : Char) (t : Str) (b : MdB) (hb : b.buf = []) (hn : w.length < n) (hw : ∀ x ∈ w, isHtmlSpace x = true)
    (hc : isHtmlSpace c = false) : (MdB.textF U n b (mdEscapeText (w ++ c :: t))).lead = (b.lead || !w.isEmpty) := by
  induction w generalizing n b with
  | nil =>
    cases n with
    | zero => simp at hn
    | succ n =>
      obtain ⟨x, y, e, hx, -⟩ := mdEscapeC_head c hc
      rw [List.nil_append, mdEscapeText_cons, e, List.cons_append, MdB.textF, if_neg (by simp [hx])]
      have hl : b.flushText.lead = b.lead := by unfold MdB.flushText; split <;> rfl
      dsimp only
      split
      · rw [textF_leadKeep _ _ _ _ (by simp)]; simpa using hl
      · rw [textF_leadKeep _ _ _ _ (by simp)]; simpa using hl
  | cons x w ih =>
    cases n with
    | zero => simp at hn
    | succ n =>
      rw [List.cons_append, mdEscapeText_cons, isHtmlSpace_special x (hw x (by simp)), List.singleton_append, MdB.textF, if_pos (hw x (by simp)),
        ih n { b with lead := b.lead || b.buf.isEmpty, pend := true } hb (by simpa using hn) fun y hy => hw y (by simp [hy])]
      simp [hb]

theorem collapse_trail (a trail : Str) (h : ∀ x ∈ trail, isHtmlSpace x = true) : ∀ p, collapseTail p (a ++ trail) = collapseTail p a := by
  have h0 : ∀ (trail : Str), (∀ x ∈ trail, isHtmlSpace x = true) → ∀ p, collapseTail p trail = [] := by
    intro trail
    induction trail with
    | nil => intro _ p; rfl
    | cons x t ih => intro h p; rw [collapseTail, if_pos (h x (by simp))]; exact ih (fun y hy => h y (by simp [hy])) true
  induction a with
  | nil => intro p; exact h0 trail h p
  | cons c a ih => intro p; rw [List.cons_append, collapseTail, collapseTail, ih, ih]

theorem Own.app {a b : Str} (ha : Own a) (hb : Own b) : Own (a ++ b) := by
  intro y
  rw [List.append_assoc, ha, hb, ha b, List.append_assoc]

theorem same_white {v w : Str} (hv : ∀ c ∈ v, isHtmlSpace c = true) (hw : ∀ c ∈ w, isHtmlSpace c = true) (h : v = [] ↔ w = []) : Same v w := by
  cases v with
  | nil => rw [h.1 rfl]; exact Same.refl _
  | cons x v =>
    cases w with
    | nil => exact absurd (h.2 rfl) (by simp)
    | cons y w =>
      refine (same_ws (hv x (by simp)) v fun c hc => hv c (by simp [hc])).trans ?_
      refine (same_swap (hv x (by simp)) (hw y (by simp))).trans ?_
      exact (same_ws (hw y (by simp)) w fun c hc => hw c (by simp [hc])).symm

/-- What a builder for the content of emphasis holds. -/
def ReadsI (b : MdB) (f : Str) : Prop :=
  (b.buf = [] ∧ b.nl = 0 ∧ (∀ c ∈ f, isHtmlSpace c = true) ∧ b.lead = !f.isEmpty ∧ b.pend = !f.isEmpty) ∨
  (Busy b ∧ '\n' ∉ b.out ∧ (∃ x s, b.out = x :: s ∧ isHtmlSpace x = false) ∧ (∀ y, b.out.getLast? = some y → isHtmlSpace y = false) ∧ Own b.out ∧
    ∃ w core trail, CoreOf f w core trail ∧ b.lead = !w.isEmpty ∧ b.pend = (!trail.isEmpty) ∧ Same (mdUnescape b.out) core)

theorem collapse_core {core : Str} (hl : ∃ i x, core = i ++ [x] ∧ isHtmlSpace x = false) (p : Bool) : Same (collapseTail p core) (mdSpc p ++ core) := by
  obtain ⟨i, x, e, hx⟩ := hl
  have h := same_collapse core p
  rw [endsSpc_non core (by rw [e]; simpa using hx) (by rw [e]; simp)] at h
  simpa [mdSpc] using h

theorem readsI_text {U : Uni} {b : MdB} {f : Str} (h : ReadsI b f) (d : Str) : ReadsI (b.text U (mdEscapeText d)) (f ++ d) := by
  unfold MdB.text
  have hlen : d.length ≤ (mdEscapeText d).length := by
    clear h
    induction d with
    | nil => simp
    | cons c t ih =>
      rw [mdEscapeText_cons]
      rcases mdEscapeC_cases c with ⟨-, e⟩ | ⟨-, e⟩ | ⟨-, e⟩ | ⟨-, -, -, e⟩ <;> (rw [e]; simp; omega)
  rcases core_split d with hd | ⟨w, core, trail, hd⟩
  · rw [textF_white U _ d hlen b hd]
    rcases h with ⟨h1, h2, h3, h4, h5⟩ | ⟨h1, h2, h3, h3', h4, w, core, trail, h5, h6, h7, h8⟩
    · refine .inl ⟨h1, h2, ?_, ?_, ?_⟩
      · intro c hc
        rcases List.mem_append.1 hc with k | k
        · exact h3 c k
        · exact hd c k
      · simp [h1, h4]; cases f <;> simp
      · simp [h5]; cases f <;> simp
    · refine .inr ⟨⟨h1.ne, h1.nl, h1.noblank⟩, h2, h3, h3', h4, w, core, trail ++ d, ⟨by rw [h5.eq]; simp, h5.lead, ?_, h5.head, h5.last⟩, ?_, ?_, h8⟩
      · intro c hc
        rcases List.mem_append.1 hc with k | k
        · exact h5.trail c k
        · exact hd c k
      · have : b.buf.isEmpty = false := by simpa using h1.ne
        simp [this, h6]
      · simp [h7]; cases trail <;> simp
  · obtain ⟨c, t, hc1, hc2⟩ := hd.head
    obtain ⟨i, x, hx1, hx2⟩ := hd.last
    have e : d = w ++ c :: (t ++ trail) := by rw [hd.eq, hc1]; simp
    have hdw : d.dropWhile isHtmlSpace = c :: (t ++ trail) := by
      rw [e, List.dropWhile_append_of_pos hd.lead, List.dropWhile_cons_of_neg (by simp [hc2])]
    have hct : c :: (t ++ trail) = core ++ trail := by rw [hc1]; rfl
    have hends : ∀ p, endsSpc p d = !trail.isEmpty := by
      intro p
      have h0 : ∀ (tr : Str), (∀ z ∈ tr, isHtmlSpace z = true) → ∀ p, endsSpc p tr = (p || !tr.isEmpty) := by
        intro tr
        induction tr with
        | nil => intro _ p; simp [endsSpc]
        | cons z tr ih => intro hz p; rw [endsSpc, hz z (by simp), ih fun y hy => hz y (by simp [hy])]; simp
      rw [hd.eq, endsSpc_append, endsSpc_append, endsSpc_non core (by rw [hx1]; simpa using hx2) (by rw [hx1]; simp), h0 trail hd.trail]
      simp
    have hne : words d ≠ [] := by
      have : ∀ w : Str, (∀ x ∈ w, isHtmlSpace x = true) → words (w ++ c :: (t ++ trail)) ≠ [] := by
        intro w
        induction w with
        | nil => intro _; rw [List.nil_append, words_cons c _ (by rw [← ws_eq]; exact hc2)]; simp
        | cons x w ih =>
          intro h
          rw [List.cons_append, words_ws x _ (by rw [← ws_eq]; exact h x (by simp))]
          exact ih fun y hy => h y (by simp [hy])
      rw [e]; exact this w hd.lead
    rcases h with ⟨h1, h2, h3, h4, h5⟩ | ⟨h1, h2, h3, h3', h4, w0, core0, trail0, h5, h6, h7, h8⟩
    · obtain ⟨k1, k2, k3⟩ := textF_at U _ d (Nat.le_refl _) b (.inl ⟨h1, h2⟩) hne
      rw [show b.out = [] by simp [MdB.out, h1], List.nil_append] at k1
      obtain ⟨l1, l2, l3, l4, l5⟩ := line_facts U d hne
      have hlead := textF_lead U (mdEscapeText d).length w c (t ++ trail) b h1 (by
        have : w.length < d.length := by rw [e]; simp
        omega) hd.lead hc2
      rw [← e] at hlead
      have hun : ∀ y, mdUnescape (mdLineOf U (mdEscapeText (d.dropWhile isHtmlSpace)) ++ y) = collapseTail false core ++ mdUnescape y := by
        intro y
        rw [hdw, unescape_line U c _ hc2, hct, collapse_trail core trail hd.trail]
      have hun0 : mdUnescape (mdLineOf U (mdEscapeText (d.dropWhile isHtmlSpace))) = collapseTail false core := by
        have := hun []
        rw [List.append_nil] at this
        rw [this]; simp [mdUnescape]
      refine .inr ⟨k2, by rw [k1]; exact l2, ?_, by rw [k1]; exact l5, ?_, f ++ w, core, trail, ⟨by rw [hd.eq]; simp, ?_, hd.trail, hd.head, hd.last⟩, ?_, ?_, ?_⟩
      · rw [k1]
        cases hl : mdLineOf U (mdEscapeText (d.dropWhile isHtmlSpace)) with
        | nil => exact absurd hl l3
        | cons x s => exact ⟨x, s, rfl, l4 x (by rw [hl]; rfl)⟩
      · rw [k1]; intro y; rw [hun, hun0]
      · intro c hc
        rcases List.mem_append.1 hc with k | k
        · exact h3 c k
        · exact hd.lead c k
      · rw [hlead, h4]; cases f <;> cases w <;> rfl
      · rw [k3, hends]
      · rw [k1, hun0]
        simpa [mdSpc] using collapse_core hd.last false
    · have k1 := textF_busy U _ (mdEscapeText d) (Nat.le_refl _) b h1
      rw [collapse_escape] at k1
      have k2 := textF_pend U _ (mdEscapeText d) (Nat.le_refl _) b h1
      rw [endsSpc_escape, hends] at k2
      have k3 := textF_leadKeep U (mdEscapeText d).length (mdEscapeText d) b h1.ne
      have hOwnE : Own (mdEscapeText (collapseTail b.pend d)) ∧ mdUnescape (mdEscapeText (collapseTail b.pend d)) = collapseTail b.pend d := by
        have h0 : mdUnescape (mdEscapeText (collapseTail b.pend d)) = collapseTail b.pend d := by
          have := unescape_text (collapseTail b.pend d) []
          rw [List.append_nil] at this
          rw [this]; simp [mdUnescape]
        exact ⟨fun y => by rw [unescape_text, h0], h0⟩
      have hcol : collapseTail b.pend d = collapseTail b.pend (w ++ core) := by
        rw [hd.eq, collapse_trail _ _ hd.trail]
      have hcore : Same (collapseTail b.pend d) (mdSpc b.pend ++ (w ++ core)) := by
        rw [hcol]
        exact collapse_core ⟨w ++ i, x, by rw [hx1]; simp, hx2⟩ b.pend
      have hnlE : '\n' ∉ mdEscapeText (collapseTail b.pend d) := by
        refine unescape_newline _ ?_
        rw [hOwnE.2]
        intro hm
        rcases collapse_mem _ _ _ hm with k | k <;> exact absurd k (by decide)
      refine .inr ⟨textF_stays U _ _ b h1, ?_, ?_, ?_, ?_, w0, core0 ++ trail0 ++ w ++ core, trail, ⟨by rw [h5.eq, hd.eq]; simp, h5.lead, hd.trail, ?_, ?_⟩, by rw [k3, h6], k2, ?_⟩
      · rw [k1, List.mem_append, not_or]; exact ⟨h2, hnlE⟩
      · obtain ⟨z, s, hz, hz'⟩ := h3
        rw [k1, hz]; exact ⟨z, _, rfl, hz'⟩
      · intro y hy
        rw [k1, List.getLast?_append, Option.or_eq_some_iff] at hy
        rcases hy with hy | ⟨-, hy⟩
        · rw [← collapse_escape] at hy
          exact collapseTail_last _ _ y hy
        · exact h3' y hy
      · rw [k1]; exact h4.app hOwnE.1
      · obtain ⟨z, s, hz, hz'⟩ := h5.head
        rw [hz]; exact ⟨z, _, by simp; rfl, hz'⟩
      · exact ⟨core0 ++ trail0 ++ w ++ i, x, by rw [hx1]; simp, hx2⟩
      · rw [k1, h4, hOwnE.2]
        have s1 := (h8.right (collapseTail b.pend d)).trans (hcore.left core0)
        have s2 : Same (mdSpc b.pend) trail0 := by
          refine same_white (mdSpc_ws _) h5.trail ?_
          rw [h7]; cases trail0 <;> simp [mdSpc]
        have s3 := ((s2.right (w ++ core)).left core0)
        refine s1.trans ?_
        simpa using s3

/-- A segment without a line break. -/
theorem raw_gen (b : MdB) (x : Char) (s : Str) (h1 : x ≠ '`' ∨ (b.flushRaw x).endsTick = false) (h2 : '\n' ∉ x :: s) :
    b.raw (x :: s) = { b.flushRaw x with buf := (x :: s) :: (b.flushRaw x).buf, nl := 0 } := by
  unfold MdB.raw
  dsimp only
  rw [if_neg (by simpa using h2), if_neg (by rcases h1 with h | h <;> simp [h])]

theorem flush_pend (b : MdB) (x : Char) : (b.flushRaw x).pend = false := by
  unfold MdB.flushRaw
  cases hp : b.pend <;> simp [hp]

theorem flush_id (b : MdB) (x : Char) (h : b.pend = false) : b.flushRaw x = b := by
  unfold MdB.flushRaw
  rw [if_neg (by simp [h])]

/-- The three segments of emphasis. -/
theorem raw3_eq (b : MdB) (m content : Str) (hm : m = ['*'] ∨ m = c%"**") (hc : content ≠ []) (hn : '\n' ∉ content) :
    ((b.raw m).raw content).raw m = { b.flushRaw '*' with buf := m :: content :: m :: (b.flushRaw '*').buf, nl := 0 } := by
  obtain ⟨s, rfl, hs⟩ : ∃ s, m = '*' :: s ∧ (s = [] ∨ s = ['*']) := by
    rcases hm with rfl | rfl
    · exact ⟨[], rfl, .inl rfl⟩
    · exact ⟨['*'], rfl, .inr rfl⟩
  cases content with
  | nil => exact absurd rfl hc
  | cons y u =>
    have hnl : '\n' ∉ '*' :: s := by rcases hs with rfl | rfl <;> decide
    have htick : ∀ (b : MdB), ({ b with buf := ('*' :: s) :: b.buf, nl := 0 } : MdB).endsTick = false := by
      intro b
      rcases hs with rfl | rfl <;> simp [MdB.endsTick]
    rw [raw_gen b '*' s (.inl (by decide)) hnl]
    have hp := flush_pend b '*'
    generalize b.flushRaw '*' = b0 at hp ⊢
    have f1 : ∀ x, ({ b0 with buf := ('*' :: s) :: b0.buf, nl := 0 } : MdB).flushRaw x = { b0 with buf := ('*' :: s) :: b0.buf, nl := 0 } := fun x => flush_id _ x hp
    rw [raw_gen _ y u (.inr (by rw [f1]; exact htick b0)) hn, f1]
    dsimp only
    rw [raw_gen _ '*' s (.inl (by decide)) hnl, flush_id _ '*' (by exact hp)]

theorem mark_plain {m : Str} (hm : m = ['*'] ∨ m = c%"**") : (∀ c ∈ m, c ≠ '\\' ∧ c ≠ '&') ∧ '\n' ∉ m ∧ ∃ i, m = '*' :: i ∧ m = i ++ ['*'] := by
  rcases hm with rfl | rfl
  · exact ⟨by decide, by decide, [], rfl, rfl⟩
  · exact ⟨by decide, by decide, ['*'], rfl, rfl⟩

theorem last_mark {x m i : Str} (hm : m = i ++ ['*']) {y : Char} (hy : (x ++ m).getLast? = some y) : y = '*' := by
  subst hm
  rw [← List.append_assoc] at hy
  simpa using hy.symm

theorem out3 (b : MdB) (m content : Str) : ({ b with buf := m :: content :: m :: b.buf, nl := 0 } : MdB).out = b.out ++ m ++ content ++ m := by
  simp [MdB.out]

theorem busy3 (b : MdB) (m content : Str) (hm : m = ['*'] ∨ m = c%"**") : Busy ({ b with buf := m :: content :: m :: b.buf, nl := 0 } : MdB) := by
  refine ⟨by simp, rfl, ?_⟩
  rcases hm with rfl | rfl <;> simp [MdB.endsBlank] <;> decide

theorem own3 {o m content : Str} (ho : Own o) (hm : m = ['*'] ∨ m = c%"**") (hc : Own content) :
    Own (o ++ m ++ content ++ m) ∧ mdUnescape (o ++ m ++ content ++ m) = mdUnescape o ++ m ++ mdUnescape content ++ m := by
  have hp := (mark_plain hm).1
  obtain ⟨h1, h2⟩ := ho.plain m hp
  have h3 := h2.app hc
  obtain ⟨h4, h5⟩ := h3.plain m hp
  exact ⟨h5, by rw [h4, h2, h1]⟩

/-- `z` is written, beginning with `x`, behind the space that is pending. -/
structure Seg (b b' : MdB) (x : Char) (z : Str) : Prop where
  out : b'.out = (b.flushRaw x).out ++ z
  head : ∃ t, z = x :: t
  nonws : isHtmlSpace x = false
  busy : Busy b'
  pend : b'.pend = false
  lead : b'.lead = b.lead

/-- `z` is one line without white space around it that reads as `core`. -/
structure Nice (z core : Str) : Prop where
  own : Own z
  same : Same (mdUnescape z) core
  nonl : '\n' ∉ z
  last : ∀ y, z.getLast? = some y → isHtmlSpace y = false
  chead : ∃ c t, core = c :: t ∧ isHtmlSpace c = false
  clast : ∃ i x, core = i ++ [x] ∧ isHtmlSpace x = false

theorem reads_seg {b b' : MdB} {f z core : Str} {x : Char} (h : Reads b f) (hs : Seg b b' x z) (hn : Nice z core) : Reads b' (f ++ core) := by
  have hb0 : Own (b.flushRaw x).out ∧ SameF (mdUnescape (b.flushRaw x).out) f := by
    cases hp : b.pend with
    | false =>
      rw [flush_id b _ hp]
      have := h.same
      rw [hp] at this
      exact ⟨h.own, by simpa [mdSpc] using this⟩
    | true =>
      rcases h.place with hb | hb
      · have e : (b.flushRaw x).out = b.out ++ [' '] := by
          unfold MdB.flushRaw
          rw [if_pos hp]
          have h1 : b.buf.isEmpty = false := by simpa using hb.ne
          rw [if_pos (by simp [h1, hb.nl, hb.noblank, hs.nonws])]
          simp [MdB.out]
        obtain ⟨h1, h2⟩ := h.own.plain [' '] (by decide)
        rw [e, h1]
        have := h.same
        rw [hp] at this
        exact ⟨h2, this⟩
      · have e : (b.flushRaw x).out = b.out := by
          unfold MdB.flushRaw
          rw [if_pos hp]
          rw [if_neg ?_]
          · rfl
          rcases hb with hb | hb
          · rcases hb.state with ⟨k, -⟩ | ⟨k, -⟩
            · simp [k]
            · have : b.nl ≠ 0 := by omega
              simp [this]
          · simp [hb.blank]
        rw [e]
        refine ⟨h.own, ?_⟩
        have hu : mdUnescape b.out = [] ∨ ∃ v c, mdUnescape b.out = v ++ [c] ∧ isHtmlSpace c = true := by
          rcases hb with hb | hb
          · exact hb.out
          · exact hb.out
        exact (sameF_line hu _ (mdSpc_ws _)).symm.trans h.same
  refine ⟨by rw [hs.out]; exact hb0.1.app hn.own, .inl hs.busy, ?_⟩
  rw [hs.out, hb0.1, hs.pend, show mdSpc false = [] from rfl, List.append_nil]
  exact (hb0.2.right (mdUnescape z)).trans (hn.same.left f).first

theorem readsI_seg {b b' : MdB} {f z core : Str} {x : Char} (h : ReadsI b f) (hs : Seg b b' x z) (hn : Nice z core) : ReadsI b' (f ++ core) := by
  obtain ⟨t, hz⟩ := hs.head
  have hlast : ∀ a y, (a ++ z).getLast? = some y → isHtmlSpace y = false := by
    intro a y hy
    rw [List.getLast?_append, Option.or_eq_some_iff] at hy
    rcases hy with hy | ⟨hy, -⟩
    · exact hn.last y hy
    · rw [hz] at hy; simp at hy
  rcases h with ⟨h1, h2, h3, h4, h5⟩ | ⟨h1, h2, h3, h3', h4, w, c0, trail, h5, h6, h7, h8⟩
  · have hb : (b.flushRaw x).out = [] := by
      unfold MdB.flushRaw
      split <;> simp [h1, MdB.out]
    have e : b'.out = z := by rw [hs.out, hb]; rfl
    refine .inr ⟨hs.busy, by rw [e]; exact hn.nonl, by rw [e, hz]; exact ⟨x, t, rfl, hs.nonws⟩, by rw [e]; exact hn.last, by rw [e]; exact hn.own,
      f, core, [], ⟨by simp, h3, by simp, hn.chead, hn.clast⟩, by rw [hs.lead, h4], hs.pend, by rw [e]; exact hn.same⟩
  · have hb : (b.flushRaw x).out = b.out ++ mdSpc b.pend := by
      cases hp : b.pend with
      | false => rw [flush_id b _ hp]; simp [mdSpc]
      | true =>
        unfold MdB.flushRaw
        rw [if_pos hp]
        have k1 : b.buf.isEmpty = false := by simpa using h1.ne
        rw [if_pos (by simp [k1, h1.nl, h1.noblank, hs.nonws])]
        simp [MdB.out, mdSpc]
    obtain ⟨q1, q2⟩ := h4.plain (mdSpc b.pend) (by cases b.pend <;> simp [mdSpc])
    have e : b'.out = b.out ++ mdSpc b.pend ++ z := by rw [hs.out, hb]
    refine .inr ⟨hs.busy, ?_, ?_, ?_, ?_, w, c0 ++ trail ++ core, [], ⟨by rw [h5.eq]; simp, h5.lead, by simp, ?_, ?_⟩, by rw [hs.lead, h6], hs.pend, ?_⟩
    · rw [e]
      have : '\n' ∉ mdSpc b.pend := by cases b.pend <;> simp [mdSpc]
      simp [hn.nonl, h2, this]
    · obtain ⟨z, s, hz, hz'⟩ := h3
      rw [e, hz]; exact ⟨z, _, by simp; rfl, hz'⟩
    · rw [e]; exact hlast _
    · rw [e]; exact q2.app hn.own
    · obtain ⟨z, s, hz, hz'⟩ := h5.head
      rw [hz]; exact ⟨z, _, by simp; rfl, hz'⟩
    · obtain ⟨i, y, hi, hy⟩ := hn.clast
      exact ⟨c0 ++ trail ++ i, y, by rw [hi]; simp, hy⟩
    · rw [e, q2, q1]
      have s2 : Same (mdSpc b.pend) trail := by
        refine same_white (mdSpc_ws _) h5.trail ?_
        rw [h7]; cases trail <;> simp [mdSpc]
      have s3 := (h8.right (mdSpc b.pend)).trans (s2.left c0)
      have s4 := (s3.right (mdUnescape z)).trans (hn.same.left (c0 ++ trail))
      simpa using s4

theorem plain_own {s : Str} (hs : ∀ c ∈ s, c ≠ '\\' ∧ c ≠ '&') : Own s ∧ mdUnescape s = s := by
  have h0 : Own [] := fun y => by simp [mdUnescape]
  obtain ⟨h1, h2⟩ := h0.plain s hs
  exact ⟨by simpa using h2, by simpa [mdUnescape] using h1⟩

/-- A content between plain marks. -/
theorem nice_wrap {a content core z : Str} (ha : ∀ c ∈ a, c ≠ '\\' ∧ c ≠ '&') (hz : ∀ c ∈ z, c ≠ '\\' ∧ c ≠ '&') (hc : Own content)
    (hs : Same (mdUnescape content) core) (hn : '\n' ∉ a ++ content ++ z) (h1 : ∃ c t, a = c :: t ∧ isHtmlSpace c = false)
    (h2 : ∃ i x, z = i ++ [x] ∧ isHtmlSpace x = false) : Nice (a ++ content ++ z) (a ++ core ++ z) := by
  obtain ⟨p1, p2⟩ := plain_own ha
  obtain ⟨q1, q2⟩ := plain_own hz
  obtain ⟨c, t, e1, hc1⟩ := h1
  obtain ⟨i, x, e2, hx⟩ := h2
  refine ⟨(p1.app hc).app q1, ?_, hn, ?_, ⟨c, _, by rw [e1]; simp; rfl, hc1⟩, ⟨a ++ core ++ i, x, by rw [e2]; simp, hx⟩⟩
  · rw [p1.app hc, p1, p2, q2]
    exact (hs.left a).right z
  · intro y hy
    rw [e2, ← List.append_assoc] at hy
    have : y = x := by simpa using hy.symm
    rw [this]; exact hx

theorem seg_em (b : MdB) {m content core : Str} (hm : m = ['*'] ∨ m = c%"**") (hc : content ≠ []) (hn : '\n' ∉ content)
    (ho : Own content) (hs : Same (mdUnescape content) core) : Seg b (((b.raw m).raw content).raw m) '*' (m ++ content ++ m) ∧ Nice (m ++ content ++ m) (m ++ core ++ m) := by
  obtain ⟨hp1, hp2, i, hm1, hm2⟩ := mark_plain hm
  refine ⟨?_, nice_wrap hp1 hp1 ho hs (by simp [hp2, hn]) ⟨'*', i, hm1, by decide⟩ ⟨i, '*', hm2, by decide⟩⟩
  rw [raw3_eq b m content hm hc hn]
  refine ⟨by rw [out3]; simp, ⟨i ++ content ++ m, by conv => lhs; arg 1; arg 1; rw [hm1]
                                                     simp⟩, by decide, busy3 _ m content hm, flush_pend _ _, ?_⟩
  unfold MdB.flushRaw
  split <;> rfl

/-- Emphasis in a place of either kind. -/
theorem em_gen (U : Uni) (P : MdB → Str → Prop) (ht : ∀ b f, P b f → P (b.text U [' ']) (f ++ [' ']))
    (hr : ∀ b f b' x z core, P b f → Seg b b' x z → Nice z core → P b' (f ++ core))
    (hw : ∀ b f v w, P b (f ++ v) → v ≠ [] → w ≠ [] → (∀ c ∈ v, isHtmlSpace c = true) → (∀ c ∈ w, isHtmlSpace c = true) → P b (f ++ w))
    (b : MdB) (f : Str) (h : P b f) (inner : MdB) (g : Str) (hi : ReadsI inner g) (m : Str) (hm : m = ['*'] ∨ m = c%"**") :
    P (mdAfterMarker U b inner m) (f ++ Spec.around m g) := by
  have space : ∀ c ∈ [' '], isHtmlSpace c = true := by decide
  have step : ∀ b f (v : Str), P b f → (∀ c ∈ v, isHtmlSpace c = true) → P (if (!v.isEmpty) = true then b.text U [' '] else b) (f ++ v) := by
    intro b f v hb hv
    cases v with
    | nil => simpa using hb
    | cons x v => exact hw _ _ [' '] (x :: v) (ht b f hb) (by simp) (by simp) space hv
  unfold mdAfterMarker
  dsimp only
  rcases hi with ⟨h1, h2, h3, h4, h5⟩ | ⟨h1, h2, h3, h3', h4, w, core, trail, h5, h6, h7, h8⟩
  · have hf : inner.finish = [] := by
      unfold MdB.finish MdB.out; rw [h1]; rfl
    rw [hf, around_ws m g h3, h4, h5]
    simp only [List.isEmpty_nil, Bool.not_true, Bool.false_and, Bool.false_eq_true, if_false, if_true]
    cases g with
    | nil => simpa using h
    | cons x v =>
      have k1 := ht _ _ (ht _ _ h)
      rw [List.append_assoc] at k1
      exact hw _ _ ([' '] ++ [' ']) (x :: v) k1 (by simp) (by simp) (by decide) h3
  · have hs : ∀ y, isHtmlSpace y = false → isFinishStrip y = false := by
      intro y h
      simp only [isHtmlSpace, Bool.or_eq_false_iff, decide_eq_false_iff_not] at h
      simp [isFinishStrip, h.1.1.1.1, h.1.1.1.2, h.1.1.2]
    obtain ⟨x, s, e, hx⟩ := h3
    have hf : inner.finish = inner.out := by
      unfold MdB.finish
      refine stripP_id _ _ (fun y hy => ?_) (fun y hy => hs y (h3' y hy))
      rw [e] at hy
      simp only [List.head?_cons, Option.some.injEq] at hy
      exact hs y (hy ▸ hx)
    have hne : inner.out ≠ [] := by rw [e]; simp
    have hemp : inner.out.isEmpty = false := by simpa using hne
    have hcon : (!inner.out.isEmpty && inner.out.contains '\n') = false := by simp [h2]
    rw [hf, h5.around m, h6, h7, hcon, hemp]
    simp only [Bool.false_eq_true, if_false]
    have k1 := step b f w h h5.lead
    obtain ⟨g1, g2⟩ := seg_em (if (!w.isEmpty) = true then b.text U [' '] else b) hm hne h2 h4 h8
    have k2 := hr _ _ _ _ _ _ k1 g1 g2
    have k3 := step _ _ trail k2 h5.trail
    simpa using k3

/-! ### Links -/

theorem raw_push (b : MdB) (hp : b.pend = false) (x : Char) (s : Str) (h1 : x ≠ '`' ∨ b.endsTick = false) (h2 : '\n' ∉ x :: s) :
    b.raw (x :: s) = { b with buf := (x :: s) :: b.buf, nl := 0 } := by
  rw [raw_gen b x s (by rw [flush_id b x hp]; exact h1) h2, flush_id b x hp]

theorem raw_push2 (b : MdB) (l : List Str) (hp : b.pend = false) (x : Char) (s : Str) (h1 : x ≠ '`' ∨ (l.head?.bind List.getLast?).any (· = '`') = false) (h2 : '\n' ∉ x :: s) :
    ({ b with buf := l, nl := 0 } : MdB).raw (x :: s) = { b with buf := (x :: s) :: l, nl := 0 } := raw_push { b with buf := l, nl := 0 } hp x s h1 h2

theorem plainUrl_facts {c : Char} (h : Spec.plainUrl c = true) : c ≠ '\\' ∧ c ≠ '&' ∧ c ≠ '\n' ∧ mdNeedsWrap c = false ∧ isAscii c = true ∧ 33 ≤ c.toNat := by
  simp only [Spec.plainUrl, Bool.and_eq_true, decide_eq_true_eq, List.mem_cons, List.not_mem_nil, or_false, not_or] at h
  obtain ⟨⟨h1, h2⟩, h3, h4, h5, h6, h7, h8⟩ := h
  have hn : ∀ d : Char, d.toNat < 33 → c ≠ d := by rintro d hd rfl; omega
  refine ⟨h7, h8, hn _ (by decide), ?_, ?_, h1⟩
  · simp [mdNeedsWrap, h3, h4, h5, h6, hn ' ' (by decide), hn '\t' (by decide), hn '\n' (by decide), hn '\r' (by decide)]
  · simp [isAscii]; omega

theorem linkDest_plain (U : Uni) (u : Str) (hu : u.all Spec.plainUrl = true) (hne : u ≠ []) : mdLinkDest U u = u := by
  have hf := fun c hc => plainUrl_facts (List.all_eq_true.1 hu c hc)
  have hsp : ∀ c ∈ u, U.isSpace c = false := by
    intro c hc
    rw [U.isSpace_ascii c (hf c hc).2.2.2.2.1]
    have := (hf c hc).2.2.2.2.2
    have h2 : c ≠ ' ' := by rintro rfl; revert this; decide
    simp only [Bool.or_eq_false_iff, decide_eq_false_iff_not, Bool.and_eq_false_iff]
    exact ⟨⟨h2, by omega⟩, by omega⟩
  unfold mdLinkDest
  dsimp only
  rw [stripP_id _ _ (fun y hy => hsp y (List.mem_of_mem_head? hy)) (fun y hy => hsp y (List.mem_of_getLast? hy))]
  rw [if_neg (by simpa using hne), if_neg ?_]
  simp only [Bool.not_eq_true, List.any_eq_false]
  intro c hc
  simp [(hf c hc).2.2.2.1]

/-- The segments of a link. -/
def linkRaw (U : Uni) (b : MdB) (content href : Str) : MdB :=
  let b2 := ((b.raw ['[']).raw content).raw [']']
  if href.isEmpty then b2 else ((b2.raw ['(']).raw (mdLinkDest U href)).raw [')']

theorem CoreOf.aroundLink {f w core trail : Str} (h : CoreOf f w core trail) (t : Str) : Spec.aroundLink t f = w ++ (['['] ++ core ++ t) ++ trail := by
  obtain ⟨h1, h2, h3, h4⟩ := h.strip
  unfold Spec.aroundLink
  dsimp only
  rw [h1, if_neg h4, h2, h3]
  simp

theorem aroundLink_ws (t f : Str) (h : ∀ c ∈ f, isHtmlSpace c = true) : Spec.aroundLink t f = f ++ (['['] ++ [] ++ t) ++ f := by
  have : stripP isHtmlSpace f = [] := by
    unfold stripP lstripP rstripP
    have : f.dropWhile isHtmlSpace = [] := by
      have := List.dropWhile_append_of_pos (l₂ := []) h
      simpa using this
    rw [this]; rfl
  unfold Spec.aroundLink
  dsimp only
  rw [if_pos this]
  simp

theorem seg_link (U : Uni) (b : MdB) (attrs : List (Str × Option Str)) (hu : (linkHref attrs).all plainUrl = true) {content core : Str} (hn : '\n' ∉ content)
    (ho : Own content) (hs : Same (mdUnescape content) core) :
    Seg b (linkRaw U b content (linkHref attrs)) '[' (['['] ++ content ++ linkTail attrs) ∧ Nice (['['] ++ content ++ linkTail attrs) (['['] ++ core ++ linkTail attrs) := by
  have hf := fun c hc => plainUrl_facts (List.all_eq_true.1 hu c hc)
  have lead : (b.flushRaw '[').lead = b.lead := by
    unfold MdB.flushRaw
    split <;> rfl
  have hp := flush_pend b '['
  have e0 := raw_gen b '[' [] (.inl (by decide)) (by decide)
  unfold linkRaw linkTail
  generalize linkHref attrs = href at hu hf ⊢
  rw [e0]
  generalize hb0 : b.flushRaw '[' = b0 at *
  have e1 : ∃ pre, (({ b0 with buf := ['['] :: b0.buf, nl := 0 } : MdB).raw content).raw [']'] = { b0 with buf := [']'] :: (pre ++ ['['] :: b0.buf), nl := 0 } ∧
      pre.reverse.flatten = content := by
    cases content with
    | nil =>
      refine ⟨[], ?_, rfl⟩
      rw [show ({ b0 with buf := ['['] :: b0.buf, nl := 0 } : MdB).raw [] = { b0 with buf := ['['] :: b0.buf, nl := 0 } from rfl]
      rw [raw_push2 b0 _ hp ']' [] (.inl (by decide)) (by decide)]
      rfl
    | cons y u =>
      refine ⟨[y :: u], ?_, by simp⟩
      rw [raw_push2 b0 _ hp y u (.inr (by simp)) hn, raw_push2 b0 _ hp ']' [] (.inl (by decide)) (by decide)]
      rfl
  obtain ⟨pre, e1, e2⟩ := e1
  dsimp only
  rw [e1]
  cases href with
  | nil =>
    refine ⟨⟨?_, ⟨_, by simp; rfl⟩, by decide, ⟨by simp, rfl, by simp [MdB.endsBlank]; decide⟩, hp, lead⟩,
      nice_wrap (by decide) (by decide) ho hs (by simp [hn]) ⟨'[', [], rfl, by decide⟩ ⟨[], ']', rfl, by decide⟩⟩
    rw [hb0]; simp [MdB.out, e2]
  | cons x t =>
    rw [linkDest_plain U (x :: t) hu (by simp)]
    have hnl : '\n' ∉ x :: t := fun h => (hf _ h).2.2.1 rfl
    simp only [List.isEmpty_cons, Bool.false_eq_true, if_false]
    rw [raw_push2 b0 _ hp '(' [] (.inl (by decide)) (by decide), raw_push2 b0 _ hp x t (.inr (by simp)) hnl,
      raw_push2 b0 _ hp ')' [] (.inl (by decide)) (by decide), if_neg (by simp)]
    have hpl : ∀ c ∈ c%"](" ++ (x :: t) ++ [')'], c ≠ '\\' ∧ c ≠ '&' := by
      intro c hc
      rcases List.mem_append.1 hc with hc | hc
      · rcases List.mem_append.1 hc with hc | hc
        · exact (by decide : ∀ c ∈ c%"](", c ≠ '\\' ∧ c ≠ '&') c hc
        · exact ⟨(hf c hc).1, (hf c hc).2.1⟩
      · exact (by decide : ∀ c ∈ [')'], c ≠ '\\' ∧ c ≠ '&') c hc
    refine ⟨⟨?_, ⟨_, by simp; rfl⟩, by decide, ⟨by simp, rfl, by simp [MdB.endsBlank]; decide⟩, hp, lead⟩,
      nice_wrap (by decide) hpl ho hs ?_ ⟨'[', [], rfl, by decide⟩ ⟨c%"](" ++ (x :: t), ')', rfl, by decide⟩⟩
    · rw [hb0]; simp [MdB.out, e2]
    · simp only [List.mem_append, not_or]
      exact ⟨⟨by decide, hn⟩, ⟨by decide, hnl⟩, by decide⟩

/-- What a link or emphasis takes from the builder of its content. -/
theorem readsI_finish {inner : MdB} {g : Str} (hi : ReadsI inner g) :
    (inner.finish = [] ∧ (∀ c ∈ g, isHtmlSpace c = true) ∧ inner.lead = !g.isEmpty ∧ inner.pend = !g.isEmpty) ∨
    ('\n' ∉ inner.finish ∧ Own inner.finish ∧ ∃ w core trail, CoreOf g w core trail ∧ inner.lead = !w.isEmpty ∧ inner.pend = !trail.isEmpty ∧
      Same (mdUnescape inner.finish) core) := by
  rcases hi with ⟨h1, h2, h3, h4, h5⟩ | ⟨h1, h2, h3, h3', h4, w, core, trail, h5, h6, h7, h8⟩
  · refine .inl ⟨?_, h3, h4, h5⟩
    unfold MdB.finish MdB.out; rw [h1]; rfl
  · have hs : ∀ y, isHtmlSpace y = false → isFinishStrip y = false := by
      intro y h
      simp only [isHtmlSpace, Bool.or_eq_false_iff, decide_eq_false_iff_not] at h
      simp [isFinishStrip, h.1.1.1.1, h.1.1.1.2, h.1.1.2]
    obtain ⟨x, s, e, hx⟩ := h3
    have hf : inner.finish = inner.out := by
      unfold MdB.finish
      refine stripP_id _ _ (fun y hy => ?_) (fun y hy => hs y (h3' y hy))
      rw [e] at hy
      simp only [List.head?_cons, Option.some.injEq] at hy
      exact hs y (hy ▸ hx)
    rw [hf]
    exact .inr ⟨h2, h4, w, core, trail, h5, h6, h7, h8⟩

/-- A link in a place of either kind. -/
theorem link_gen (U : Uni) (P : MdB → Str → Prop) (ht : ∀ b f, P b f → P (b.text U [' ']) (f ++ [' ']))
    (hr : ∀ b f b' x z core, P b f → Seg b b' x z → Nice z core → P b' (f ++ core))
    (hw : ∀ b f v w, P b (f ++ v) → v ≠ [] → w ≠ [] → (∀ c ∈ v, isHtmlSpace c = true) → (∀ c ∈ w, isHtmlSpace c = true) → P b (f ++ w))
    (b : MdB) (f : Str) (h : P b f) (inner : MdB) (g : Str) (hi : ReadsI inner g) (attrs : List (Str × Option Str)) (hu : (linkHref attrs).all plainUrl = true) :
    P (mdAfterLink U b inner (mdHref attrs)) (f ++ aroundLink (linkTail attrs) g) := by
  have step : ∀ b f (v : Str), P b f → (∀ c ∈ v, isHtmlSpace c = true) → P (if (!v.isEmpty) = true then b.text U [' '] else b) (f ++ v) := by
    intro b f v hb hv
    cases v with
    | nil => simpa using hb
    | cons x v => exact hw _ _ [' '] (x :: v) (ht b f hb) (by simp) (by simp) (by decide) hv
  have key : ∀ content core w trail, inner.finish = content → inner.lead = (!List.isEmpty w) → inner.pend = (!List.isEmpty trail) → '\n' ∉ content → Own content →
      Same (mdUnescape content) core → (∀ c ∈ w, isHtmlSpace c = true) → (∀ c ∈ trail, isHtmlSpace c = true) →
      P (mdAfterLink U b inner (mdHref attrs)) (f ++ (w ++ (['['] ++ core ++ linkTail attrs) ++ trail)) := by
    intro content core w trail e1 e2 e3 k1 k2 k3 k4 k5
    have j1 := step b f w h k4
    obtain ⟨g1, g2⟩ := seg_link U (if (!w.isEmpty) = true then b.text U [' '] else b) attrs hu k1 k2 k3
    have j2 := step _ _ trail (hr _ _ _ _ _ _ j1 g1 g2) k5
    rw [List.append_assoc, List.append_assoc] at j2
    rw [List.append_assoc w]
    refine Eq.mp ?_ j2
    congr 1
    unfold mdAfterLink linkRaw
    dsimp only
    rw [e1, e2, e3]
    rfl
  rcases readsI_finish hi with ⟨h1, h2, h3, h4⟩ | ⟨h2, h3, w, core, trail, h5, h6, h7, h8⟩
  · rw [aroundLink_ws _ _ h2]
    exact key [] [] g g h1 h3 h4 (by simp) (fun y => by simp [mdUnescape]) (by simp [mdUnescape]; exact Same.refl _) h2 h2
  · rw [h5.aroundLink]
    exact key _ core w trail rfl h6 h7 h2 h3 h8 h5.lead h5.trail

theorem text_space {U : Uni} {b : MdB} : b.text U [' '] = b.text U (mdEscapeText [' ']) := rfl

theorem reads_em (U : Uni) {b : MdB} {f : Str} (h : Reads b f) (inner : MdB) (g : Str) (hi : ReadsI inner g) (m : Str) (hm : m = ['*'] ∨ m = c%"**") :
    Reads (mdAfterMarker U b inner m) (f ++ Spec.around m g) :=
  em_gen U Reads (fun _ _ h => reads_text h [' ']) (fun _ _ _ _ _ _ h h1 h2 => reads_seg h h1 h2)
    (fun _ f v w h h1 h2 h3 h4 => h.congr ((same_white h3 h4 (by simp [h1, h2])).left f).first) b f h inner g hi m hm

theorem readsI_white (b : MdB) (f v w : Str) : ReadsI b (f ++ v) → v ≠ [] → w ≠ [] → (∀ c ∈ v, isHtmlSpace c = true) → (∀ c ∈ w, isHtmlSpace c = true) → ReadsI b (f ++ w) := by
  intro h h1 h2 h3 h4
  have hne : ∀ a u : Str, u ≠ [] → (!(a ++ u).isEmpty) = true := by
    intro a u hu
    cases a <;> cases u <;> simp_all
  rcases h with ⟨k1, k2, k3, k4, k5⟩ | ⟨k1, k2, k3, k3', k4, w0, core, trail, k5, k6, k7, k8⟩
  · refine .inl ⟨k1, k2, ?_, ?_, ?_⟩
    · intro c hc
      rcases List.mem_append.1 hc with k | k
      · exact k3 c (by simp [k])
      · exact h4 c k
    · rw [k4, hne f v h1, hne f w h2]
    · rw [k5, hne f v h1, hne f w h2]
  · have key : ∃ t', f = w0 ++ core ++ t' ∧ trail = t' ++ v := by
      rcases List.append_eq_append_iff.1 k5.eq with ⟨a, e1, e2⟩ | ⟨t', e1, e2⟩
      · obtain ⟨i, x, e3, hx⟩ := k5.last
        rcases List.eq_nil_or_concat a with rfl | ⟨j, y, rfl⟩
        · exact ⟨[], by simpa using e1.symm, by simpa using e2.symm⟩
        · exfalso
          rw [List.concat_eq_append] at e1 e2
          rw [e3, ← List.append_assoc, ← List.append_assoc] at e1
          have := (List.append_inj' e1 rfl).2
          simp only [List.cons.injEq, and_true] at this
          subst this
          rw [h3 x (by rw [e2]; simp)] at hx
          cases hx
      · exact ⟨t', e1, e2⟩
    obtain ⟨t', e1, e2⟩ := key
    refine .inr ⟨k1, k2, k3, k3', k4, w0, core, t' ++ w, ⟨by rw [e1]; simp, k5.lead, ?_, k5.head, k5.last⟩, k6, ?_, k8⟩
    · intro c hc
      rcases List.mem_append.1 hc with k | k
      · exact k5.trail c (by rw [e2]; simp [k])
      · exact h4 c k
    · rw [k7, e2, hne t' v h1, hne t' w h2]

theorem readsI_em (U : Uni) {b : MdB} {f : Str} (h : ReadsI b f) (inner : MdB) (g : Str) (hi : ReadsI inner g) (m : Str) (hm : m = ['*'] ∨ m = c%"**") :
    ReadsI (mdAfterMarker U b inner m) (f ++ Spec.around m g) :=
  em_gen U ReadsI (fun _ _ h => readsI_text h [' ']) (fun _ _ _ _ _ _ h h1 h2 => readsI_seg h h1 h2) readsI_white b f h inner g hi m hm

theorem reads_link (U : Uni) {b : MdB} {f : Str} (h : Reads b f) (inner : MdB) (g : Str) (hi : ReadsI inner g) (attrs : List (Str × Option Str))
    (hu : (linkHref attrs).all plainUrl = true) : Reads (mdAfterLink U b inner (mdHref attrs)) (f ++ aroundLink (linkTail attrs) g) :=
  link_gen U Reads (fun _ _ h => reads_text h [' ']) (fun _ _ _ _ _ _ h h1 h2 => reads_seg h h1 h2)
    (fun _ f v w h h1 h2 h3 h4 => h.congr ((same_white h3 h4 (by simp [h1, h2])).left f).first) b f h inner g hi attrs hu

theorem readsI_link (U : Uni) {b : MdB} {f : Str} (h : ReadsI b f) (inner : MdB) (g : Str) (hi : ReadsI inner g) (attrs : List (Str × Option Str))
    (hu : (linkHref attrs).all plainUrl = true) : ReadsI (mdAfterLink U b inner (mdHref attrs)) (f ++ aroundLink (linkTail attrs) g) :=
  link_gen U ReadsI (fun _ _ h => readsI_text h [' ']) (fun _ _ _ _ _ _ h h1 h2 => readsI_seg h h1 h2) readsI_white b f h inner g hi attrs hu

/-! ### The tree -/

theorem readsI_new (d : Nat) : ReadsI (MdB.new d) [] := .inl ⟨rfl, rfl, by simp, rfl, rfl⟩

theorem line_none {tag : Str} (h1 : tag ∉ mdOwn) (h2 : tag ∉ mdLineElems) : mdHeading tag = none ∧ headingMark.find? (fun p => decide (p.1 = tag)) = none ∧
    tag ≠ c%"hr" ∧ tag ≠ c%"ul" ∧ tag ≠ c%"ol" ∧ tag ≠ c%"p" ∧ tag ∉ mdSection ∧ mdBlocks.contains tag = false := by
  simp only [mdOwn, mdLineElems, mdSection, List.mem_cons, List.mem_append, List.not_mem_nil, or_false, not_or] at h1 h2
  refine ⟨?_, ?_, h2.2.2.2.2.2.2.2.1, h2.2.2.2.2.2.2.2.2.1, h2.2.2.2.2.2.2.2.2.2, h2.1.1, ?_, ?_⟩
  · unfold mdHeading; simp [h2]
  · rw [List.find?_eq_none]
    intro p hp
    simp only [headingMark, List.mem_cons, List.not_mem_nil, or_false] at hp
    rcases hp with rfl | rfl | rfl | rfl | rfl | rfl <;> simp [Ne.symm, h2, eq_comm]
  · simp [mdSection, h2]
  · simp [mdBlocks, h1, h2]

theorem em_cases (tag : Str) : (∃ m, (m = ['*'] ∨ m = c%"**") ∧ tag ∈ emMark.map (·.1) ∧ emMark.find? (fun p => decide (p.1 = tag)) = some (tag, m) ∧
      ((m = ['*'] ∧ (tag = c%"em" ∨ tag = c%"i")) ∨ (m = c%"**" ∧ (tag = c%"strong" ∨ tag = c%"b")))) ∨
    (emMark.find? (fun p => decide (p.1 = tag)) = none ∧ tag ≠ c%"em" ∧ tag ≠ c%"i" ∧ tag ≠ c%"strong" ∧ tag ≠ c%"b") := by
  by_cases h1 : tag = c%"em"
  · subst h1; exact .inl ⟨['*'], .inl rfl, by decide, rfl, .inl ⟨rfl, .inl rfl⟩⟩
  by_cases h2 : tag = c%"i"
  · subst h2; exact .inl ⟨['*'], .inl rfl, by decide, rfl, .inl ⟨rfl, .inr rfl⟩⟩
  by_cases h3 : tag = c%"strong"
  · subst h3; exact .inl ⟨c%"**", .inr rfl, by decide, rfl, .inr ⟨rfl, .inl rfl⟩⟩
  by_cases h4 : tag = c%"b"
  · subst h4; exact .inl ⟨c%"**", .inr rfl, by decide, rfl, .inr ⟨rfl, .inr rfl⟩⟩
  refine .inr ⟨?_, h1, h2, h3, h4⟩
  simp [emMark, eq_comm, h1, h2, h3, h4]

mutual
theorem readsI_visit (U : Uni) (html : Node → Str) (pass : Bool) (ld : Nat) (il : Bool) : ∀ (n : Node), Flows U.lower n → Inline U.lower n → ∀ (b : MdB) (f : Str), ReadsI b f →
    ReadsI (mdVisit U html pass b ld il n) (f ++ mdFlow U.lower n)
  | .text d, _, _, b, f, h => by unfold mdVisit mdFlow; exact readsI_text h d
  | .comment _, _, _, b, f, h => by unfold mdVisit mdFlow; rw [List.append_nil]; exact h
  | .pi _, _, _, b, f, h => by unfold mdVisit mdFlow; rw [List.append_nil]; exact h
  | .doctype _ _ _, _, _, b, f, h => by unfold mdVisit mdFlow; rw [List.append_nil]; exact h
  | .doc kids, hn, hi, b, f, h => by
    unfold mdVisit mdFlow
    unfold Flows at hn
    unfold Inline at hi
    exact readsI_visitL U html pass ld il kids hn hi b f h
  | .elem name ns attrs kids tpl content, hn, hi, b, f, h => by
    unfold Flows at hn
    unfold Inline at hi
    obtain ⟨h1, h2, -, hurl, h3⟩ := hn
    obtain ⟨hbr, hl, hi⟩ := hi
    subst h2
    rw [mdVisit, mdFlow]
    dsimp only
    rw [if_neg hbr, if_neg hbr]
    have ihl := readsI_visitL U html pass ld il kids h3 hi
    have ihk := readsI_visitL U html pass ld true kids h3 hi
    generalize U.lower name = tag at h1 hl hurl ⊢
    obtain ⟨k1, k2, k3, k4, k5, k6, k7, k8⟩ := line_none h1 hl
    rw [k1, k2]
    dsimp only
    simp only [mdOwn, List.mem_cons, List.not_mem_nil, or_false, not_or] at h1
    rcases em_cases tag with ⟨m, hm, -, hf, hcase⟩ | ⟨hf, c1, c2, c3, c4⟩
    · have := readsI_em U h _ _ (ihl (MdB.new b.depth) [] (readsI_new _)) m hm
      rw [List.nil_append] at this
      rw [hf]
      rcases hcase with ⟨rfl, rfl | rfl⟩ | ⟨rfl, rfl | rfl⟩ <;> simpa [k7] using this
    · rw [hf]
      by_cases ha : tag = c%"a"
      · have := readsI_link U h _ _ (ihk (MdB.new b.depth) [] (readsI_new _)) attrs (hurl ha)
        rw [List.nil_append] at this
        subst ha
        simpa [k7, k8] using this
      have := ihl b f h
      simp only [h1, k3, k4, k5, k6, k7, k8, c1, c2, c3, c4, ha]
      simpa using this
theorem readsI_visitL (U : Uni) (html : Node → Str) (pass : Bool) (ld : Nat) (il : Bool) : ∀ (l : List Node), FlowsL U.lower l → InlineL U.lower l → ∀ (b : MdB) (f : Str), ReadsI b f →
    ReadsI (mdVisitL U html pass b ld il l) (f ++ mdFlowL U.lower l)
  | [], _, _, b, f, h => by unfold mdVisitL mdFlowL; rw [List.append_nil]; exact h
  | n :: ns, hn, hi, b, f, h => by
    unfold mdVisitL mdFlowL
    unfold FlowsL at hn
    unfold InlineL at hi
    have := readsI_visitL U html pass ld il ns hn.2 hi.2 _ _ (readsI_visit U html pass ld il n hn.1 hi.1 b f h)
    rw [List.append_assoc] at this
    exact this
end

mutual
theorem reads_visit (U : Uni) (html : Node → Str) (pass : Bool) (ld : Nat) : ∀ (n : Node), Flows U.lower n → ∀ (b : MdB) (f : Str), Reads b f →
    Reads (mdVisit U html pass b ld false n) (f ++ mdFlow U.lower n)
  | .text d, _, b, f, h => by unfold mdVisit mdFlow; exact reads_text h d
  | .comment _, _, b, f, h => by unfold mdVisit mdFlow; rw [List.append_nil]; exact h
  | .pi _, _, b, f, h => by unfold mdVisit mdFlow; rw [List.append_nil]; exact h
  | .doctype _ _ _, _, b, f, h => by unfold mdVisit mdFlow; rw [List.append_nil]; exact h
  | .doc kids, hn, b, f, h => by
    unfold mdVisit mdFlow
    unfold Flows at hn
    exact reads_visitL U html pass ld kids hn b f h
  | .elem name ns attrs kids tpl content, hn, b, f, h => by
    unfold Flows at hn
    obtain ⟨h1, h2, hem, hurl, h3⟩ := hn
    subst h2
    rw [mdVisit, mdFlow]
    dsimp only
    by_cases hbr : name = c%"br"
    · rw [if_pos hbr, if_pos hbr]
      exact reads_newline h
    rw [if_neg hbr, if_neg hbr]
    have ihl := reads_visitL U html pass ld kids h3
    have ihi := reads_items U html pass ld kids h3
    have ihe := fun (il : Bool) (hi : InlineL U.lower kids) => readsI_visitL U html pass ld il kids h3 hi (MdB.new b.depth) [] (readsI_new _)
    generalize U.lower name = tag at h1 hem hurl ⊢
    by_cases hhead : tag ∈ [c%"h1", c%"h2", c%"h3", c%"h4", c%"h5", c%"h6"]
    · have key : ∀ k : Nat, 0 < k → Reads ((mdVisitL U html pass ((b.ensureBlock.raw (List.replicate k '#')).raw [' ']) ld false kids).ensure 2)
          (f ++ (['\n'] ++ (List.replicate k '#' ++ [' ']) ++ mdFlowL U.lower kids ++ ['\n'])) := by
        intro k hk
        have := reads_ensure (ihl _ _ (reads_heading (reads_block h) (block_atLine h) k hk))
        simpa using this
      simp only [List.mem_cons, List.not_mem_nil, or_false] at hhead
      rcases hhead with rfl | rfl | rfl | rfl | rfl | rfl
      · exact key 1 (by decide)
      · exact key 2 (by decide)
      · exact key 3 (by decide)
      · exact key 4 (by decide)
      · exact key 5 (by decide)
      · exact key 6 (by decide)
    have hh : mdHeading tag = none := by
      unfold mdHeading
      simp only [List.mem_cons, List.not_mem_nil, or_false, not_or] at hhead
      simp [hhead]
    have hf : headingMark.find? (fun p => decide (p.1 = tag)) = none := by
      rw [List.find?_eq_none]
      intro p hp
      have : p.1 ∈ headingMark.map (·.1) := List.mem_map_of_mem hp
      have : p.1 ≠ tag := by rintro rfl; exact hhead this
      simpa using this
    rw [hh, hf]
    dsimp only
    by_cases hr : tag = c%"hr"
    · subst hr
      have := reads_ensure (reads_rule (reads_block h) (block_atLine h))
      simp at this ⊢
      exact this
    by_cases hul : tag = c%"ul"
    · subst hul
      have := reads_ensure (ihi false 1 b.ensureBlock _ (reads_block h) (Nat.le_refl _) fun _ => block_atLine h)
      simp at this ⊢
      exact this
    by_cases hol : tag = c%"ol"
    · subst hol
      have := reads_ensure (ihi true 1 b.ensureBlock _ (reads_block h) (Nat.le_refl _) fun _ => block_atLine h)
      simp at this ⊢
      exact this
    have hs : tag ≠ c%"p" → mdBlocks.contains tag = decide (tag ∈ mdSection) := by
      intro hp
      simp only [mdOwn, List.mem_cons, List.not_mem_nil, or_false, not_or] at h1 hhead
      simp [mdBlocks, mdSection, h1, hp, hhead, hr, hul, hol]
    by_cases hp : tag = c%"p"
    · subst hp
      have := reads_ensure (ihl b.ensureBlock _ (reads_block h))
      simp [mdAfterBlock, mdSection] at this ⊢
      exact this
    · have hs := hs hp
      simp only [mdOwn, List.mem_cons, List.not_mem_nil, or_false, not_or] at h1
      simp only [h1, hp, hs, hr, hul, hol]
      by_cases hm : tag ∈ mdSection
      · have := reads_ensure (ihl b.ensureBlock _ (reads_block h))
        have c : tag ≠ c%"em" ∧ tag ≠ c%"i" ∧ tag ≠ c%"strong" ∧ tag ≠ c%"b" ∧ tag ≠ c%"a" := by
          refine ⟨?_, ?_, ?_, ?_, ?_⟩ <;> (rintro rfl; exact absurd hm (by decide))
        simp [mdAfterBlock, hm, c] at this ⊢
        exact this
      · rcases em_cases tag with ⟨m, hm', hin, hf, hcase⟩ | ⟨hf, c1, c2, c3, c4⟩
        · have := reads_em U h _ _ (ihe false (hem (.inl hin))) m hm'
          rw [List.nil_append] at this
          rw [hf]
          rcases hcase with ⟨rfl, rfl | rfl⟩ | ⟨rfl, rfl | rfl⟩ <;> simpa [hm] using this
        · rw [hf]
          by_cases ha : tag = c%"a"
          · have := reads_link U h _ _ (ihe true (hem (.inr ha))) attrs (hurl ha)
            rw [List.nil_append] at this
            subst ha
            simpa [hm] using this
          have := ihl b f h
          simp only [c1, c2, c3, c4, ha]
          simpa [hm] using this
theorem reads_visitL (U : Uni) (html : Node → Str) (pass : Bool) (ld : Nat) : ∀ (l : List Node), FlowsL U.lower l → ∀ (b : MdB) (f : Str), Reads b f →
    Reads (mdVisitL U html pass b ld false l) (f ++ mdFlowL U.lower l)
  | [], _, b, f, h => by unfold mdVisitL mdFlowL; rw [List.append_nil]; exact h
  | n :: ns, hn, b, f, h => by
    unfold mdVisitL mdFlowL
    unfold FlowsL at hn
    have := reads_visitL U html pass ld ns hn.2 _ _ (reads_visit U html pass ld n hn.1 b f h)
    rw [List.append_assoc] at this
    exact this
theorem reads_items (U : Uni) (html : Node → Str) (pass : Bool) (ld : Nat) : ∀ (l : List Node), FlowsL U.lower l → ∀ (ordered : Bool) (i : Nat) (b : MdB) (f : Str),
    Reads b f → 1 ≤ i → (i = 1 → AtLine b) → Reads (mdItems U html pass b ld ordered i l) (f ++ mdFlowItems U.lower ordered i l)
  | [], _, _, _, b, f, h, _, _ => by unfold mdItems mdFlowItems; rw [List.append_nil]; exact h
  | n :: ns, hn, ordered, i, b, f, h, hi, ha => by
    unfold FlowsL at hn
    have skip := reads_items U html pass ld ns hn.2 ordered i b f h hi ha
    match n with
    | .elem name _ _ kids tpl content =>
      unfold mdItems mdFlowItems
      split
      · next hl =>
        have hkids := hn.1
        unfold Flows at hkids
        dsimp only
        have hb1 : Reads (if i = 1 then b else b.newline1) (f ++ ['\n']) ∧ AtLine (if i = 1 then b else b.newline1) := by
          split
          · next hi => exact ⟨reads_absorb h (ha hi), ha hi⟩
          · exact ⟨reads_newline h, newline_atLine b⟩
        have h2 := reads_item hb1.1 hb1.2 ld i ordered
        have h3 := reads_visitL U html pass (ld + 1) kids hkids.2.2.2.2 _ _ h2
        have h4 := reads_items U html pass ld ns hn.2 ordered (i + 1) _ _ h3 (by omega) (by omega)
        simp only [List.append_assoc] at h4 ⊢
        exact h4
      · exact skip
    | .text _ | .comment _ | .pi _ | .doctype .. | .doc _ => unfold mdItems mdFlowItems; exact skip
end

/-! ### The end -/

theorem unescape_blank_lead (w s : Str) (hw : ∀ c ∈ w, c ∈ c%" \t\n") : mdUnescape (w ++ s) = w ++ mdUnescape s := by
  induction w with
  | nil => rfl
  | cons c w ih =>
    have := hw c (by simp)
    rw [List.cons_append, mdUnescape_plain c _ (by rintro rfl; revert this; decide) (by rintro rfl; revert this; decide), ih fun x hx => hw x (by simp [hx])]
    rfl

theorem strip_parts (p : Char → Bool) (s : Str) : ∃ u v, s = u ++ stripP p s ++ v ∧ (∀ c ∈ u, p c = true) ∧ ∀ c ∈ v, p c = true := by
  obtain ⟨v, h1, h2⟩ := rstrip_split p (lstripP p s)
  refine ⟨s.takeWhile p, v, ?_, fun c hc => List.all_eq_true.1 List.all_takeWhile c hc, h2⟩
  unfold stripP
  rw [List.append_assoc, ← h1]
  unfold lstripP
  rw [List.takeWhile_append_dropWhile]

/-- **C111 (partial).** For every tree of texts, paragraphs, headings, sections, rules, lists, line breaks, emphasis and links inside a line (the addresses plain) and plain inline elements: the Markdown, with its escapes read as
CommonMark reads them, has exactly the words of the text and the marks of the headings, rules, items, emphasis and links (the last two inside the white space of their text), in
order. No word is lost, repeated, split or run together with the next. Missing: emphasis and links over a line break, other addresses, the other elements, and text in a list outside its items,
which is not written. -/
theorem C111_words_partial (U : Uni) (html : Node → Str) (pass : Bool) (n : Node) (h : Flows U.lower n) :
    wordsOf isHtmlSpace (mdUnescape (toMarkdown U html pass n)) = wordsOf isHtmlSpace (mdFlow U.lower n) := by
  have h0 : Reads (MdB.new 0) [] := ⟨fun y => by simp [MdB.new, MdB.out, mdUnescape], .inr (.inl ⟨.inl ⟨rfl, rfl⟩⟩), fun z => rfl⟩
  have h1 := reads_visit U html pass 0 n h _ _ h0
  unfold toMarkdown MdB.finish
  obtain ⟨u, v, e, hu, hv⟩ := strip_parts isFinishStrip (mdVisit U html pass (MdB.new 0) 0 false n).out
  have hb : ∀ c, isFinishStrip c = true → c ∈ c%" \t\n" := by
    intro c hc
    simp only [isFinishStrip, Bool.or_eq_true, decide_eq_true_eq] at hc
    simp only [List.mem_cons, List.not_mem_nil, or_false]
    rcases hc with (k | k) | k <;> simp [k]
  have hbs : ∀ c, isFinishStrip c = true → isHtmlSpace c = true := by
    intro c hc
    have := hb c hc
    simp only [List.mem_cons, List.not_mem_nil, or_false] at this
    rcases this with rfl | rfl | rfl <;> decide
  have h2 := h1.same []
  rw [e, unescape_blank_trail _ _ fun c hc => hb c (hv c hc), unescape_blank_lead _ _ fun c hc => hb c (hu c hc)] at h2
  generalize stripP isFinishStrip (mdVisit U html pass (MdB.new 0) 0 false n).out = o at h2 ⊢
  simp only [List.nil_append, List.append_nil, List.append_assoc] at h2
  unfold wordsOf
  rw [← h2, words_lead u _ fun c hc => hbs c (hu c hc), words_trail]
  intro c hc
  rcases List.mem_append.1 hc with k | k
  · exact hbs c (hv c k)
  · exact mdSpc_ws _ c k

-- A tree the theorem covers, with words split over elements, white space in them, markers and characters that are escaped.
example : let n := Node.doc [.elem c%"div" none [] [.text c%" 1. a*b ", .elem c%"span" none [] [.text c%"c", .elem c%"br" none [] [] false [], .text c%"# d "] false [], .text c%"e<"] false [],
      .elem c%"p" none [] [.text c%"f "] false [], .text c%"g", .elem c%"u" none [] [.text c%"h"] false []]
    Flows Uni.sample.lower n ∧ toMarkdown Uni.sample (fun _ => []) false n = c%"1\\. a\\*b c\n\\# d e&lt;\n\nf\n\ngh" ∧
    wordsOf isHtmlSpace (mdFlow Uni.sample.lower n) = [c%"1.", c%"a*b", c%"c", c%"#", c%"d", c%"e<", c%"f", c%"gh"] := by
  refine ⟨?_, by decide, by decide⟩
  simp only [Flows, FlowsL, Inline, InlineL]
  repeat' apply And.intro
  all_goals first | (intro h; exact absurd h (by decide)) | decide

example : let n := Node.doc [.elem c%"h2" none [] [.text c%" a "] false [], .elem c%"ul" none [] [.elem c%"li" none [] [.text c%"- b",
      .elem c%"ol" none [] [.elem c%"li" none [] [.text c%"c"] false [], .elem c%"li" none [] [.text c%"d"] false []] false []] false [],
      .elem c%"li" none [] [] false []] false [], .elem c%"hr" none [] [] false []]
    Flows Uni.sample.lower n ∧ toMarkdown Uni.sample (fun _ => []) false n = c%"## a\n\n- - b\n\n  1. c\n  2. d\n\n\n-\n\n---" ∧
    wordsOf isHtmlSpace (mdFlow Uni.sample.lower n) = [c%"##", c%"a", c%"-", c%"-", c%"b", c%"1.", c%"c", c%"2.", c%"d", c%"-", c%"---"] := by
  refine ⟨?_, by decide, by decide⟩
  simp only [Flows, FlowsL, Inline, InlineL]
  repeat' apply And.intro
  all_goals first | (intro h; exact absurd h (by decide)) | decide

-- Emphasis: nested, next to words, with white space inside its marks that goes outside, and without words.
example : let n := Node.doc [.elem c%"p" none [] [.text c%"a", .elem c%"em" none [] [.text c%" b ", .elem c%"strong" none [] [.text c%"c*"] false [], .text c%" "] false [], .text c%"d",
      .elem c%"b" none [] [.text c%"  "] false [], .text c%"e"] false []]
    Flows Uni.sample.lower n ∧ toMarkdown Uni.sample (fun _ => []) false n = c%"a *b **c\\**** d e" ∧
    wordsOf isHtmlSpace (mdFlow Uni.sample.lower n) = [c%"a", c%"*b", c%"**c****", c%"d", c%"e"] := by
  refine ⟨?_, by decide, by decide⟩
  simp only [Flows, FlowsL, Inline, InlineL]
  repeat' apply And.intro
  all_goals first | (intro h; exact absurd h (by decide)) | decide

-- Links: in words, with emphasis and white space inside, without an address and without words.
example : let n := Node.doc [.elem c%"p" none [] [.text c%"x", .elem c%"a" none [(c%"href", some c%"/u?a=b")] [.text c%" hi ", .elem c%"b" none [] [.text c%"there"] false [], .text c%" "] false [],
      .text c%"y", .elem c%"a" none [] [] false []] false []]
    Flows Uni.sample.lower n ∧ toMarkdown Uni.sample (fun _ => []) false n = c%"x [hi **there**](/u?a=b) y[]" ∧
    wordsOf isHtmlSpace (mdFlow Uni.sample.lower n) = [c%"x", c%"[hi", c%"**there**](/u?a=b)", c%"y[]"] := by
  refine ⟨?_, by decide, by decide⟩
  simp only [Flows, FlowsL, Inline, InlineL]
  repeat' apply And.intro
  all_goals first | (intro h; exact absurd h (by decide)) | decide

/-- **C111 (where it fails).** Emphasis over a line break loses its marks, and the word it begins in the middle of is split. -/
theorem C111_em_fails :
    toMarkdown Uni.sample (fun _ => []) false (.elem c%"p" none [] [.text c%"a", .elem c%"em" none [] [.text c%"b", .elem c%"br" none [] [] false [], .text c%"c"] false []] false []) =
      c%"a\n\nb\nc" := by decide

/-- **C111 (where it fails).** Text in a list that is in no item is lost. -/
theorem C111_list_fails (html : Node → Str) (pass : Bool) :
    toMarkdown Uni.sample html pass (.elem c%"ul" none [] [.text c%"a", .elem c%"div" none [] [.text c%"b"] false []] false []) = [] := by
  cases pass <;> rfl

end JH
