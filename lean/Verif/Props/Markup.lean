import Verif.Props.Escape
import Verif.Model.Markup
import Verif.Spec.Tokenizer

/-! Properties C04–C07: comments, processing instructions, doctypes and names cannot break out of their token. -/
namespace JH
open Spec

/-! ### C05 comments -/

/-- Number of adjacent dash pairs. -/
def dashPairs : Str → Nat
  | [] => 0
  | c :: s => (if c = '-' ∧ s.head? = some '-' then 1 else 0) + dashPairs s

theorem dashPairs_le (s : Str) : dashPairs s ≤ s.length := by
  induction s with
  | nil => simp [dashPairs]
  | cons c s ih => simp only [dashPairs, List.length_cons]; split <;> omega

theorem replaceDashes_head (s : Str) : (replaceDashes s).head? = s.head? := by
  match s with
  | [] => rfl
  | [c] => rfl
  | a :: b :: r =>
    simp only [replaceDashes]
    split
    · rename_i h; simp [h.1]
    · simp

theorem isIn_dd_iff (s : Str) : isIn ['-', '-'] s = true ↔ 0 < dashPairs s := by
  rw [isIn_iff]
  induction s with
  | nil => simp [dashPairs]
  | cons c s ih =>
    simp only [dashPairs]
    constructor
    · rintro ⟨a, b, h⟩
      cases a with
      | nil =>
        simp only [List.nil_append, List.cons_append, List.cons.injEq] at h
        obtain ⟨rfl, rfl⟩ := h
        simp; omega
      | cons x a =>
        simp only [List.cons_append, List.cons.injEq] at h
        have := ih.1 ⟨a, b, h.2⟩
        omega
    · intro h
      by_cases hc : c = '-' ∧ s.head? = some '-'
      · obtain ⟨rfl, h2⟩ := hc
        cases s with
        | nil => simp at h2
        | cons d s =>
          simp only [List.head?_cons, Option.some.injEq] at h2
          exact ⟨[], s, by simp [h2]⟩
      · rw [if_neg hc] at h
        obtain ⟨a, b, h⟩ := ih.2 (by omega)
        exact ⟨c :: a, b, by simp [h]⟩

theorem replaceDashes_pairs (s : Str) :
    dashPairs (replaceDashes s) ≤ dashPairs s ∧ (0 < dashPairs s → dashPairs (replaceDashes s) < dashPairs s) := by
  match s with
  | [] => simp [replaceDashes, dashPairs]
  | [c] => simp [replaceDashes, dashPairs]
  | a :: b :: r =>
    simp only [replaceDashes]
    by_cases h : a = '-' ∧ b = '-'
    · rw [if_pos h]
      have ih := replaceDashes_pairs r
      have hh := replaceDashes_head r
      simp only [dashPairs, hh, h.1, h.2]
      simp
      split <;> omega
    · rw [if_neg h]
      have ih := replaceDashes_pairs (b :: r)
      have hh := replaceDashes_head (b :: r)
      have e : dashPairs (a :: replaceDashes (b :: r)) = dashPairs (replaceDashes (b :: r)) := by
        rw [dashPairs, hh, if_neg (by simpa using h)]; omega
      have e2 : dashPairs (a :: b :: r) = dashPairs (b :: r) := by
        rw [dashPairs, if_neg (by simpa using h)]; omega
      rw [e, e2]; exact ih

theorem dashLoop_pairs (n : Nat) (s : Str) (h : dashPairs s ≤ n) : dashPairs (dashLoop n s) = 0 := by
  induction n generalizing s with
  | zero => simp [dashLoop]; omega
  | succ n ih =>
    simp only [dashLoop]
    by_cases hd : isIn ['-', '-'] s = true
    · rw [if_pos hd]
      have h1 := (replaceDashes_pairs s).2 ((isIn_dd_iff s).1 hd)
      exact ih _ (by omega)
    · rw [if_neg hd]
      have := mt (isIn_dd_iff s).2 hd
      omega

theorem dashLoop_more (n m : Nat) (s : Str) (h : dashPairs s ≤ n) (hm : n ≤ m) : dashLoop m s = dashLoop n s := by
  induction n generalizing s m with
  | zero =>
    have : ¬ isIn ['-', '-'] s = true := by rw [isIn_dd_iff]; omega
    cases m with
    | zero => rfl
    | succ m => simp only [dashLoop]; rw [if_neg this]
  | succ n ih =>
    cases m with
    | zero => omega
    | succ m =>
      simp only [dashLoop]
      by_cases hd : isIn ['-', '-'] s = true
      · rw [if_pos hd, if_pos hd]
        have h1 := (replaceDashes_pairs s).2 ((isIn_dd_iff s).1 hd)
        exact ih _ _ (by omega) (by omega)
      · rw [if_neg hd, if_neg hd]

/-- Every dash is followed by a character that is not a dash. -/
def DashOk : Str → Prop
  | [] => True
  | c :: s => (c = '-' → s ≠ [] ∧ s.head? ≠ some '-') ∧ DashOk s

theorem dashOk_of (s : Str) (h : dashPairs s = 0) (he : s.getLast? ≠ some '-') : DashOk s := by
  induction s with
  | nil => trivial
  | cons c s ih =>
    simp only [dashPairs] at h
    refine ⟨?_, ih (by omega) ?_⟩
    · rintro rfl
      refine ⟨?_, ?_⟩
      · rintro rfl; simp at he
      · intro hh; simp [hh] at h
    · intro hl
      apply he
      cases s with
      | nil => simp at hl
      | cons d s => simpa using hl

theorem runComment_cons (σ : CState) (acc : Str) (c : Char) (rest : Str) :
    runComment σ acc (c :: rest) = match cStep σ c with
      | .emit => some (acc, rest)
      | .next s' app => runComment s' (acc ++ app) rest := rfl

theorem run_dashOk (rest : Str) (n : Nat) : ∀ s : Str, s.length ≤ n → DashOk s → ∀ acc : Str,
    (∀ σ, σ = .comment ∨ σ = .lessThan ∨ σ = .ltBang →
      runComment σ acc (s ++ '-' :: '-' :: '>' :: rest) = some (acc ++ s.map nul, rest)) ∧
    (∀ σ, σ = .endDash ∨ σ = .ltBangDash → s ≠ [] → s.head? ≠ some '-' →
      runComment σ acc (s ++ '-' :: '-' :: '>' :: rest) = some (acc ++ '-' :: s.map nul, rest)) := by
  induction n with
  | zero =>
    intro s hs _ acc
    have : s = [] := by cases s <;> simp at hs ⊢
    subst this
    refine ⟨?_, by intros; contradiction⟩
    rintro σ (rfl | rfl | rfl) <;> simp [runComment, cStep, cComment, cEndDash, cEnd]
  | succ n ih =>
    intro s hs hg acc
    cases s with
    | nil =>
      refine ⟨?_, by intros; contradiction⟩
      rintro σ (rfl | rfl | rfl) <;> simp [runComment, cStep, cComment, cEndDash, cEnd]
    | cons c s =>
      have hlen : s.length ≤ n := by simpa using hs
      have ih' := ih s hlen hg.2
      constructor
      · intro σ hσ
        simp only [List.cons_append, runComment_cons]
        by_cases hd : c = '-'
        · obtain ⟨h1, h2⟩ := hg.1 hd
          subst hd
          rcases hσ with rfl | rfl | rfl <;>
            simp [cStep, cComment, (ih' acc).2 _ (Or.inl rfl) h1 h2, (ih' acc).2 _ (Or.inr rfl) h1 h2, nul]
        · by_cases hl : c = '<'
          · subst hl
            rcases hσ with rfl | rfl | rfl <;> simp [cStep, cComment, (ih' _).1 .lessThan (by simp), nul]
          · by_cases hb : c = '!'
            · subst hb
              rcases hσ with rfl | rfl | rfl <;>
                simp [cStep, cComment, (ih' _).1 .comment (by simp), (ih' _).1 .ltBang (by simp), nul]
            · rcases hσ with rfl | rfl | rfl <;>
                simp [cStep, cComment, hd, hl, hb, (ih' _).1 .comment (by simp)]
      · intro σ hσ _ hh
        have hd : c ≠ '-' := by simpa using hh
        simp only [List.cons_append, runComment_cons]
        by_cases hl : c = '<'
        · subst hl
          rcases hσ with rfl | rfl <;>
            simp [cStep, cComment, cEndDash, (ih' _).1 .lessThan (by simp), nul]
        · rcases hσ with rfl | rfl <;>
            simp [cStep, cComment, cEndDash, hd, hl, (ih' _).1 .comment (by simp)]

theorem run_start (rest s : Str) (hg : DashOk s) (h1 : startsWith ['>'] s = false)
    (h2 : startsWith ['-', '>'] s = false) :
    runComment .start [] (s ++ '-' :: '-' :: '>' :: rest) = some (s.map nul, rest) := by
  cases s with
  | nil => simp [runComment, cStep, cEnd]
  | cons c s =>
    have A := fun acc => (run_dashOk rest s.length s (Nat.le_refl _) hg.2 acc).1
    simp only [List.cons_append, runComment_cons]
    by_cases hd : c = '-'
    · subst hd
      obtain ⟨e1, e2⟩ := hg.1 rfl
      cases s with
      | nil => simp at e1
      | cons d s =>
        have e2' : d ≠ '-' := by simpa using e2
        have e3 : d ≠ '>' := by rintro rfl; simp [startsWith] at h2
        have B := fun acc => (run_dashOk rest s.length s (Nat.le_refl _) hg.2.2 acc).1
        simp only [cStep, List.cons_append, runComment_cons, if_pos]
        by_cases hl : d = '<'
        · subst hl
          simp [cComment, B _ .lessThan, nul]
        · simp [cComment, e2', e3, hl, B _ .comment, nul]
    · have e3 : c ≠ '>' := by rintro rfl; simp [startsWith] at h1
      by_cases hl : c = '<'
      · subst hl
        simp [cStep, cComment, A _ .lessThan, nul]
      · simp [cStep, cComment, hd, e3, hl, A _ .comment, nul]

theorem dashPairs_append_space (s : Str) : dashPairs (s ++ [' ']) = dashPairs s := by
  induction s with
  | nil => rfl
  | cons c s ih =>
    simp only [List.cons_append, dashPairs, ih]
    cases s <;> simp

theorem startsWith_false_append {p s t : Str} (hs : p.length ≤ s.length) (h : startsWith p s = false) :
    startsWith p (s ++ t) = false := by
  rw [← Bool.not_eq_true] at h ⊢
  intro hc
  apply h
  simp only [startsWith, List.isPrefixOf_iff_prefix] at hc ⊢
  exact List.prefix_of_prefix_length_le hc (List.prefix_append s t) hs

/-- The facts about the serialized comment data that containment rests on. -/
theorem serializeComment_ok (d : Str) :
    DashOk (serializeComment d) ∧ startsWith ['>'] (serializeComment d) = false ∧
      startsWith ['-', '>'] (serializeComment d) = false := by
  unfold serializeComment
  have h0 : dashPairs (dashLoop d.length d) = 0 := dashLoop_pairs _ _ (dashPairs_le d)
  generalize dashLoop d.length d = x at h0
  dsimp only
  generalize hy : (if (startsWith ['>'] x || startsWith ['-', '>'] x) = true then ' ' :: x else x) = y
  have hy1 : dashPairs y = 0 ∧ startsWith ['>'] y = false ∧ startsWith ['-', '>'] y = false := by
    rw [← hy]
    refine ite_pred (fun y => dashPairs y = 0 ∧ startsWith ['>'] y = false ∧ startsWith ['-', '>'] y = false) ?_ ?_
    · intro _; simp [dashPairs, h0, startsWith, List.isPrefixOf]
    · intro h
      simp only [Bool.or_eq_true, not_or, Bool.not_eq_true] at h
      exact ⟨h0, h⟩
  clear hy
  have step : ∀ z : Str, (dashPairs z = 0 ∧ startsWith ['>'] z = false ∧ startsWith ['-', '>'] z = false) →
      (dashPairs (z ++ [' ']) = 0 ∧ startsWith ['>'] (z ++ [' ']) = false ∧ startsWith ['-', '>'] (z ++ [' ']) = false) := by
    rintro z ⟨a, b, c⟩
    refine ⟨by rw [dashPairs_append_space]; exact a, ?_, ?_⟩
    · cases z with
      | nil => decide
      | cons _ _ => exact startsWith_false_append (by simp) b
    · match z with
      | [] => decide
      | [e] => simp [startsWith, List.isPrefixOf]
      | _ :: _ :: _ => exact startsWith_false_append (by simp) c
  generalize hz : (if endsWith ['<', '!', '-'] y = true then y ++ [' '] else y) = z
  have hz1 : dashPairs z = 0 ∧ startsWith ['>'] z = false ∧ startsWith ['-', '>'] z = false := by
    rw [← hz]
    exact ite_pred (fun y => dashPairs y = 0 ∧ startsWith ['>'] y = false ∧ startsWith ['-', '>'] y = false)
      (fun _ => step _ hy1) (fun _ => hy1)
  clear hz
  refine ite_pred (fun y => DashOk y ∧ startsWith ['>'] y = false ∧ startsWith ['-', '>'] y = false) ?_ ?_
  · intro _
    have := step _ hz1
    exact ⟨dashOk_of _ this.1 (by simp), this.2⟩
  · intro h
    refine ⟨dashOk_of _ hz1.1 ?_, hz1.2⟩
    intro hl
    apply h
    rw [endsWith_iff]
    obtain ⟨ys, rfl⟩ := List.getLast?_eq_some_iff.1 hl
    exact ⟨ys, rfl⟩

/-- C05: whatever the comment data, an HTML tokenizer that has read `<!--` and then reads the serialized data and `-->`
emits the comment exactly there: the text after it is untouched, and the comment's data is the serialized data. -/
theorem C05_comment_contained (data rest : Str) :
    runComment .start [] (serializeComment data ++ c%"-->" ++ rest)
      = some ((serializeComment data).map nul, rest) := by
  obtain ⟨h1, h2, h3⟩ := serializeComment_ok data
  have := run_start rest (serializeComment data) h1 h2 h3
  simpa using this

/-- C05: the `while "--" in out` loop terminates: after at most `len(data)` rounds no `--` is left, and granting it more
rounds changes nothing. -/
theorem C05_loop_terminates (data : Str) :
    isIn ['-', '-'] (dashLoop data.length data) = false ∧
      ∀ m, data.length ≤ m → dashLoop m data = dashLoop data.length data := by
  constructor
  · rw [← Bool.not_eq_true, isIn_dd_iff, dashLoop_pairs _ _ (dashPairs_le data)]; simp
  · exact fun m hm => dashLoop_more _ _ _ (dashPairs_le data) hm

theorem filter_replaceDashes (s : Str) : (replaceDashes s).filter (· ≠ ' ') = s.filter (· ≠ ' ') := by
  match s with
  | [] => rfl
  | [c] => rfl
  | a :: b :: r =>
    simp only [replaceDashes]
    split
    · rename_i h
      have := filter_replaceDashes r
      simp [h.1, h.2] at this ⊢; exact this
    · have := filter_replaceDashes (b :: r)
      simp only [List.filter_cons] at this ⊢
      rw [this]

theorem filter_dashLoop (n : Nat) (s : Str) : (dashLoop n s).filter (· ≠ ' ') = s.filter (· ≠ ' ') := by
  induction n generalizing s with
  | zero => rfl
  | succ n ih => simp only [dashLoop]; split
                 · rw [ih, filter_replaceDashes]
                 · rfl

/-- C05: serialization changes the comment data only by inserting spaces. -/
theorem C05_only_spaces_inserted (data : Str) :
    (serializeComment data).filter (· ≠ ' ') = data.filter (· ≠ ' ') := by
  unfold serializeComment
  have h := filter_dashLoop data.length data
  generalize dashLoop data.length data = x at h
  dsimp only
  rw [← h]
  clear h
  have hp : ∀ y : Str, (' ' :: y).filter (· ≠ ' ') = y.filter (· ≠ ' ') := by simp
  have ha : ∀ y : Str, (y ++ [' ']).filter (· ≠ ' ') = y.filter (· ≠ ' ') := by simp
  repeat' split
  all_goals simp only [hp, ha]

/-- C05: data that needs no change is written verbatim. -/
theorem C05_plain_unchanged (data : Str) (h1 : ∀ a b, data ≠ a ++ c%"--" ++ b)
    (h2 : ∀ b, data ≠ c%">" ++ b) (h3 : ∀ b, data ≠ c%"->" ++ b) (h4 : ∀ a, data ≠ a ++ c%"-") :
    serializeComment data = data := by
  have e1 : isIn ['-', '-'] data = false := isIn_false_iff.2 (by simpa using h1)
  have e0 : dashLoop data.length data = data := by
    cases data with
    | nil => rfl
    | cons c s => simp only [List.length_cons, dashLoop, e1]; simp
  have f : ∀ p : Str, (∀ b, data ≠ p ++ b) → startsWith p data = false := by
    intro p hp; rw [← Bool.not_eq_true, startsWith_iff]; rintro ⟨t, ht⟩; exact hp t ht
  have g : ∀ p : Str, (∀ b, data ≠ b ++ p) → endsWith p data = false := by
    intro p hp; rw [← Bool.not_eq_true, endsWith_iff]; rintro ⟨t, ht⟩; exact hp t ht
  unfold serializeComment
  rw [e0]
  simp only [f ['>'] (by simpa using h2), f ['-', '>'] (by simpa using h3), Bool.or_false]
  simp only [Bool.false_eq_true, if_false]
  rw [g ['<', '!', '-'] (fun b hb => h4 (b ++ ['<', '!']) (by simpa using hb))]
  simp only [Bool.false_eq_true, if_false]
  rw [g ['-'] (by simpa using h4)]
  simp

example : serializeComment c%"--><script>-" = c%"- -><script>- " := by decide
example : serializeComment c%"->x" = c%" ->x" := by decide
example : serializeComment c%" plain <!- text" = c%" plain <!- text" := by decide
example : runComment .start [] c%"--><b>" = some ([], c%"<b>") := by decide

/-! ### C06 processing instructions -/

theorem runBogus_noGt (s rest acc : Str) (h : '>' ∉ s) :
    runBogus acc (s ++ '>' :: rest) = some (acc ++ s.map nul, rest) := by
  induction s generalizing acc with
  | nil => simp [runBogus]
  | cons c s ih =>
    simp only [List.mem_cons, not_or] at h
    have : c ≠ '>' := fun e => h.1 e.symm
    simp [runBogus, this, ih _ h.2]

theorem serializePi_noGt (d : Str) : '>' ∉ serializePi d := by
  unfold serializePi
  split
  · induction d with
    | nil => simp
    | cons c d ih =>
      rename_i h
      rw [replaceC_cons]
      simp only [List.mem_append, not_or]
      constructor
      · split <;> simp; rename_i h'; exact fun e => h' e.symm
      · by_cases hd : d.contains '>' = true
        · exact ih hd
        · have : '>' ∉ d := by simpa using hd
          rwa [replaceC_of_not_mem this]
  · rename_i h; simpa using h

/-- C06: whatever the data, the processing instruction written by the serializer (`<?` data `?>`) is one bogus comment for
an HTML tokenizer, ending exactly at its final `>`. The bogus comment starts at the `?`. -/
theorem C06_pi_contained (data rest : Str) :
    runBogus [] (c%"?" ++ serializePi data ++ c%"?>" ++ rest)
      = some ((c%"?" ++ serializePi data ++ c%"?").map nul, rest) := by
  have h := runBogus_noGt ('?' :: (serializePi data ++ ['?'])) rest []
    (by simp [serializePi_noGt])
  simpa using h

/-- C06: only `>` is changed, into a space. -/
theorem C06_pi_data (data : Str) : serializePi data = data.map (fun c => if c = '>' then ' ' else c) := by
  have key : ∀ d : Str, replaceC '>' [' '] d = d.map (fun c => if c = '>' then ' ' else c) := by
    intro d
    induction d with
    | nil => rfl
    | cons c d ih => rw [replaceC_cons, ih]; simp only [List.map_cons]; split <;> simp
  unfold serializePi
  split
  · exact key data
  · rename_i h
    have : '>' ∉ data := by simpa using h
    rw [← key, replaceC_of_not_mem this]

example : runBogus [] (c%"?" ++ serializePi c%"a?><script>" ++ c%"?>" ++ c%"<b>")
    = some (c%"?a? <script ?", c%"<b>") := by decide

/-! ### C07 doctypes -/

theorem runDoctype_skip (n : Nat) (σ : DState) (t : DTok) (a b : Str) (h : a.length = n + 1) :
    runDoctype (.skip (n + 1) σ) t (a ++ b) = runDoctype σ t b := by
  induction n generalizing a with
  | zero => match a, h with
            | [x], _ => rfl
  | succ n ih =>
    match a, h with
    | x :: a, h =>
      have := ih a (by simpa using h)
      simpa [runDoctype] using this

theorem kwAt_split {kw : Str} {c : Char} {s rest : Str} (hk : kwAt kw (c :: s ++ '>' :: rest) = true)
    (hkw : '>' ∉ kw) (hs : '>' ∉ c :: s) : kw.length ≤ s.length + 1 := by
  by_cases hlt : kw.length ≤ s.length + 1
  · exact hlt
  · exfalso
    simp only [kwAt, decide_eq_true_eq] at hk
    have h1 : '>' ∈ (List.take kw.length (c :: s ++ '>' :: rest)) := by
      rw [List.take_append]
      apply List.mem_append_right
      have : kw.length - (c :: s).length = (kw.length - (c :: s).length - 1) + 1 := by
        simp only [List.length_cons]; omega
      rw [this, List.take_succ_cons]
      exact List.mem_cons_self
    have h2 : low '>' ∈ kw := by rw [← hk]; exact List.mem_map_of_mem h1
    have e : low '>' = '>' := by decide
    rw [e] at h2
    exact hkw h2

theorem runDoctype_noGt (rest : Str) (n : Nat) : ∀ (s : Str), s.length ≤ n → '>' ∉ s → ∀ (σ : DState) (t : DTok),
    (∀ m τ, σ ≠ .skip m τ) → ∃ t', runDoctype σ t (s ++ '>' :: rest) = some (t', rest) := by
  induction n with
  | zero =>
    intro s hs _ σ t hσ
    have : s = [] := by cases s <;> simp at hs ⊢
    subst this
    cases σ <;> simp_all [runDoctype, dSpace]
  | succ n ih =>
    intro s hs hg σ t hσ
    cases s with
    | nil => cases σ <;> simp_all [runDoctype, dSpace]
    | cons c s =>
      have hlen : s.length ≤ n := by simpa using hs
      simp only [List.mem_cons, not_or] at hg
      have hc : c ≠ '>' := fun e => hg.1 e.symm
      have IH := fun σ t hσ => ih s hlen hg.2 σ t hσ
      have key : ∀ kw : Str, kw.length = 6 → '>' ∉ kw → kwAt kw (c :: s ++ '>' :: rest) = true → ∀ τ t, (∀ m υ, τ ≠ .skip m υ) →
          ∃ t', runDoctype (.skip 5 τ) t (s ++ '>' :: rest) = some (t', rest) := by
        intro kw hk hk' hkw τ t hτ
        have hl := kwAt_split hkw hk' (by simp [hg.2, fun e => hc e, hg.1])
        have e : s ++ '>' :: rest = s.take 5 ++ (s.drop 5 ++ '>' :: rest) := by
          rw [← List.append_assoc, List.take_append_drop]
        rw [e, runDoctype_skip 4 τ t _ _ (by simp; omega)]
        exact ih _ (by simp; omega) (fun h => hg.2 (List.mem_of_mem_drop h)) τ t hτ
      cases σ with
      | skip m τ => exact absurd rfl (hσ m τ)
      | afterName =>
        simp only [List.cons_append, runDoctype]
        by_cases hd : dSpace c = true
        · rw [if_pos hd]; exact IH _ _ (by simp)
        · rw [if_neg hd, if_neg hc]
          by_cases hp : kwAt c%"public" (c :: (s ++ '>' :: rest)) = true
          · rw [if_pos hp]; exact key _ (by decide) (by decide) hp _ _ (by simp)
          · rw [if_neg hp]
            by_cases hq : kwAt c%"system" (c :: (s ++ '>' :: rest)) = true
            · rw [if_pos hq]; exact key _ (by decide) (by decide) hq _ _ (by simp)
            · rw [if_neg hq]; exact IH _ _ (by simp)
      | _ =>
        simp only [List.cons_append, runDoctype]
        repeat' split
        all_goals first | exact absurd ‹c = '>'› hc | exact IH _ _ (by simp)

theorem escapeAttr_noGt (p : Str) : '>' ∉ escapeAttr '"' p ∧ '"' ∉ escapeAttr '"' p := by
  have := C02_attr_contained '"' (by simp) p
  exact ⟨this.2.2, this.1⟩

/-- C07: whatever the doctype's name and identifiers, an HTML tokenizer that has read `<!DOCTYPE` ends the token exactly
at the serializer's final `>`. -/
theorem C07_doctype_contained (name : Str) (pub sys : Option Str) (rest : Str) :
    ∃ body tok, serializeDoctype name pub sys = c%"<!DOCTYPE" ++ body ∧
      runDoctype .doctype {} (body ++ rest) = some (tok, rest) := by
  have hname : '>' ∉ safeDoctypeName name := by
    unfold safeDoctypeName
    split
    · rename_i h
      unfold validTagName at h
      intro hm
      have hd : '>' ∈ dropNL name := by
        unfold dropNL
        split
        · rename_i r hr
          have : name = r.reverse ++ ['\n'] := by
            have := congrArg List.reverse hr; simpa using this
          rw [this] at hm
          simpa using hm
        · exact hm
      revert h
      cases hx : dropNL name with
      | nil => simp
      | cons c cs =>
        rw [hx] at hd
        simp only [List.mem_cons] at hd
        intro h
        simp only [Bool.and_eq_true, List.all_eq_true] at h
        rcases hd with rfl | hd
        · simp [isAsciiAlpha, isLowerC, isUpperC] at h
        · have := h.2 _ hd; simp [tagNameChar] at this
    · simp
  have hids : '>' ∉ doctypeIds pub sys := by
    cases pub <;> cases sys <;> simp [doctypeIds, (escapeAttr_noGt _).1]
  obtain ⟨a, ha'⟩ : ∃ a, a = (if (safeDoctypeName name).isEmpty then [] else ' ' :: safeDoctypeName name) ++ doctypeIds pub sys := ⟨_, rfl⟩
  have ha : '>' ∉ a := by
    rw [ha', List.mem_append, not_or]
    refine ⟨?_, hids⟩
    split
    · simp
    · simp [hname]
  obtain ⟨t', ht'⟩ := runDoctype_noGt rest a.length a (Nat.le_refl _) ha .doctype {} (by simp)
  refine ⟨a ++ ['>'], t', ?_, ?_⟩
  · rw [serializeDoctype, ha', List.append_assoc]
  · rw [List.append_assoc]; exact ht'

theorem dropNL_cases (s : Str) : s = dropNL s ∨ s = dropNL s ++ ['\n'] := by
  unfold dropNL
  split
  · rename_i r hr
    right
    have := congrArg List.reverse hr; simpa using this
  · left; rfl

theorem validTagName_chars {name : Str} (h : validTagName name = true) :
    ∃ c cs, dropNL name = c :: cs ∧ isAsciiAlpha c = true ∧ ∀ x ∈ cs, tagNameChar x = true := by
  unfold validTagName at h
  cases hx : dropNL name with
  | nil => simp [hx] at h
  | cons c cs =>
    simp only [hx, Bool.and_eq_true, List.all_eq_true] at h
    exact ⟨c, cs, rfl, h.1, h.2⟩

theorem isAsciiAlpha_tagNameChar {c : Char} (h : isAsciiAlpha c = true) : tagNameChar c = true := by
  simp only [isAsciiAlpha, Bool.or_eq_true, isLowerC_iff, isUpperC_iff] at h
  have : ∀ d : Char, (d.toNat < 65) → c ≠ d := by rintro d hd rfl; omega
  simp only [tagNameChar, Bool.not_eq_true', Bool.or_eq_false_iff, decide_eq_false_iff_not]
  refine ⟨⟨⟨⟨⟨⟨?_, ?_⟩, ?_⟩, ?_⟩, ?_⟩, ?_⟩, ?_⟩ <;> exact this _ (by decide)

theorem tagNameChar_dSpace {c : Char} (h : tagNameChar c = true) : dSpace c = false ∧ c ≠ '>' := by
  simp only [tagNameChar, Bool.not_eq_true', Bool.or_eq_false_iff, decide_eq_false_iff_not] at h
  simp [dSpace, h]

theorem runDoctype_name (n X acc : Str) (t : DTok) (h : ∀ x ∈ n, tagNameChar x = true) :
    runDoctype .name { t with name := some acc } (n ++ X)
      = runDoctype .name { t with name := some (acc ++ n.map (fun c => nul (low c))) } X := by
  induction n generalizing acc with
  | nil => simp
  | cons c n ih =>
    have hc := tagNameChar_dSpace (h c (by simp))
    simp only [List.cons_append, runDoctype, hc.1, if_neg hc.2]
    simp only [app, Option.getD_some]
    have := ih (acc ++ [nul (low c)]) (fun x hx => h x (by simp [hx]))
    simpa using this

theorem runDoctype_pubDQ (p X acc : Str) (t : DTok) (h : '>' ∉ p ∧ '"' ∉ p) :
    runDoctype .pubDQ { t with pub := some acc } (p ++ '"' :: X)
      = runDoctype .afterPub { t with pub := some (acc ++ p.map nul) } X := by
  induction p generalizing acc with
  | nil => simp [runDoctype]
  | cons c p ih =>
    simp only [List.mem_cons, not_or] at h
    have h1 : c ≠ '>' := fun e => h.1.1 e.symm
    have h2 : c ≠ '"' := fun e => h.2.1 e.symm
    have := ih (acc ++ [nul c]) ⟨h.1.2, h.2.2⟩
    simpa [runDoctype, h1, h2, app] using this

theorem runDoctype_sysDQ (p X acc : Str) (t : DTok) (h : '>' ∉ p ∧ '"' ∉ p) :
    runDoctype .sysDQ { t with sys := some acc } (p ++ '"' :: X)
      = runDoctype .afterSys { t with sys := some (acc ++ p.map nul) } X := by
  induction p generalizing acc with
  | nil => simp [runDoctype]
  | cons c p ih =>
    simp only [List.mem_cons, not_or] at h
    have h1 : c ≠ '>' := fun e => h.1.1 e.symm
    have h2 : c ≠ '"' := fun e => h.2.1 e.symm
    have := ih (acc ++ [nul c]) ⟨h.1.2, h.2.2⟩
    simpa [runDoctype, h1, h2, app] using this

theorem runDoctype_toAfterName (name X : Str) (hv : validTagName name = true) (d : Char) (hd : d = ' ' ∨ d = '>') :
    runDoctype .doctype {} (' ' :: name ++ d :: X)
      = runDoctype .name { name := some ((dropNL name).map (fun c => nul (low c))) } (d :: X) := by
  obtain ⟨c, cs, hx, hc, hcs⟩ := validTagName_chars hv
  have h2 := tagNameChar_dSpace (isAsciiAlpha_tagNameChar hc)
  have h1 : dSpace ' ' = true := by decide
  have main : ∀ Y, runDoctype .doctype {} (' ' :: dropNL name ++ Y)
      = runDoctype .name { name := some ((dropNL name).map (fun c => nul (low c))) } Y := by
    intro Y
    rw [hx]
    simp only [List.cons_append, runDoctype, h1, if_true, h2.1, if_neg h2.2]
    have := runDoctype_name cs Y [nul (low c)] {} hcs
    simpa using this
  rcases dropNL_cases name with h | h
  · conv => lhs; rw [h]
    exact main _
  · conv => lhs; rw [h]
    have := main ('\n' :: d :: X)
    simp only [List.cons_append, List.append_assoc, List.nil_append] at this ⊢
    rw [this]
    rcases hd with rfl | rfl <;> simp [runDoctype, dSpace]

/-- C07: for a serializable name the token the tokenizer emits has exactly that name (lower-cased) and the serialized
public and system identifiers, and does not set force-quirks. -/
theorem C07_doctype_token (name : Str) (pub sys : Option Str) (rest : Str) (hv : validTagName name = true) :
    ∃ body, serializeDoctype name pub sys = c%"<!DOCTYPE" ++ body ∧
      runDoctype .doctype {} (body ++ rest) = some (
        { name := some ((dropNL name).map (fun c => nul (low c))),
          pub := pub.map fun p => (escapeAttr '"' p).map nul,
          sys := sys.map fun p => (escapeAttr '"' p).map nul,
          quirks := false }, rest) := by
  have hne : name.isEmpty = false := by
    obtain ⟨c, cs, hx, _⟩ := validTagName_chars hv
    cases name with
    | nil => simp [dropNL] at hx
    | cons _ _ => rfl
  have P := fun p X acc t => runDoctype_pubDQ (escapeAttr '"' p) X acc t (escapeAttr_noGt p)
  have S := fun p X acc t => runDoctype_sysDQ (escapeAttr '"' p) X acc t (escapeAttr_noGt p)
  refine ⟨' ' :: name ++ (doctypeIds pub sys ++ ['>']), ?_, ?_⟩
  · rw [serializeDoctype, safeDoctypeName, if_pos hv, hne]; rfl
  cases pub with
  | none =>
    cases sys with
    | none =>
      have := runDoctype_toAfterName name rest hv '>' (by simp)
      simpa [runDoctype, dSpace, doctypeIds] using this
    | some s =>
      have := runDoctype_toAfterName name (c%"SYSTEM \"" ++ escapeAttr '"' s ++ c%"\">" ++ rest) hv ' ' (by simp)
      have e := S s ('>' :: rest) [] { name := some ((dropNL name).map (fun c => nul (low c))) }
      simp [runDoctype, dSpace, kwAt, low, doctypeIds] at this e ⊢
      rw [this, e]
  | some p =>
    cases sys with
    | none =>
      have := runDoctype_toAfterName name (c%"PUBLIC \"" ++ escapeAttr '"' p ++ c%"\">" ++ rest) hv ' ' (by simp)
      have e := P p ('>' :: rest) [] { name := some ((dropNL name).map (fun c => nul (low c))) }
      simp [runDoctype, dSpace, kwAt, low, doctypeIds] at this e ⊢
      rw [this, e]
    | some s =>
      have := runDoctype_toAfterName name (c%"PUBLIC \"" ++ escapeAttr '"' p ++ c%"\" \"" ++ escapeAttr '"' s ++ c%"\">" ++ rest) hv ' ' (by simp)
      have e := P p (' ' :: '"' :: escapeAttr '"' s ++ '"' :: '>' :: rest) [] { name := some ((dropNL name).map (fun c => nul (low c))) }
      have e2 := S s ('>' :: rest) [] { name := some ((dropNL name).map (fun c => nul (low c))), pub := some ((escapeAttr '"' p).map nul) }
      simp [runDoctype, dSpace, kwAt, low, doctypeIds] at this e e2 ⊢
      rw [this, e, e2]

/-- C07: a name that is not a valid tag name is not written at all. -/
theorem C07_bad_name_dropped (name : Str) (h : validTagName name = false) (pub sys : Option Str) :
    serializeDoctype name pub sys = serializeDoctype [] pub sys := by
  have : validTagName [] = false := by decide
  have e : safeDoctypeName name = safeDoctypeName [] := by simp [safeDoctypeName, h, this]
  rw [serializeDoctype, serializeDoctype, e]

example : serializeDoctype c%"html><script>" none (some c%"a\"><b") =
    c%"<!DOCTYPE SYSTEM \"a&quot;&gt;&lt;b\">" := by decide
example : validTagName c%"HTML" = true := by decide

/-! ### C04 names -/

/-- C04, specification: a name may be written as an element name. -/
def NameOk (n : Str) : Prop :=
  ∃ c cs, n = c :: cs ∧ (('a' ≤ c ∧ c ≤ 'z') ∨ ('A' ≤ c ∧ c ≤ 'Z')) ∧
    ∀ x ∈ cs, x ∉ ['\t', '\n', '\x0c', '\r', ' ', '/', '>']

/-- C04, specification: a name may be written as an attribute name. -/
def AttrOk (n : Str) : Prop := n ≠ [] ∧ ∀ x ∈ n, x ∉ ['\t', '\n', '\x0c', '\r', ' ', '/', '>', '=']

theorem charLe (a b : Char) : a ≤ b ↔ a.toNat ≤ b.toNat := Iff.rfl

theorem validTagName_iff (name : Str) :
    validTagName name = true ↔ ∃ n, NameOk n ∧ (name = n ∨ name = n ++ ['\n']) := by
  have hal : ∀ c : Char, isAsciiAlpha c = true ↔ (('a' ≤ c ∧ c ≤ 'z') ∨ ('A' ≤ c ∧ c ≤ 'Z')) := by
    intro c
    simp only [isAsciiAlpha, Bool.or_eq_true, isLowerC_iff, isUpperC_iff, charLe]
    rfl
  have htc : ∀ x : Char, tagNameChar x = true ↔ x ∉ ['\t', '\n', '\x0c', '\r', ' ', '/', '>'] := by
    intro x; simp [tagNameChar, and_assoc]
  constructor
  · intro h
    obtain ⟨c, cs, hx, hc, hcs⟩ := validTagName_chars h
    refine ⟨dropNL name, ⟨c, cs, hx, (hal c).1 hc, fun x hx => (htc x).1 (hcs x hx)⟩, dropNL_cases name⟩
  · rintro ⟨n, ⟨c, cs, rfl, hc, hcs⟩, hn⟩
    have hd : dropNL name = c :: cs := by
      rcases hn with rfl | rfl
      · unfold dropNL
        split
        · rename_i r hr
          exfalso
          have hm : '\n' ∈ c :: cs := by
            rw [← List.mem_reverse, hr]; simp
          simp only [List.mem_cons] at hm
          rcases hm with rfl | hm
          · revert hc; decide
          · exact hcs _ hm (by simp)
        · rfl
      · simp [dropNL]
    simp only [validTagName, hd, Bool.and_eq_true, List.all_eq_true]
    exact ⟨(hal c).2 hc, fun x hx => (htc x).2 (hcs x hx)⟩

theorem validAttrName_iff (name : Str) :
    validAttrName name = true ↔ ∃ n, AttrOk n ∧ (name = n ∨ name = n ++ ['\n']) := by
  have htc : ∀ x : Char, attrNameChar x = true ↔ x ∉ ['\t', '\n', '\x0c', '\r', ' ', '/', '>', '='] := by
    intro x; simp [attrNameChar, tagNameChar, and_assoc]
  simp only [validAttrName, Bool.and_eq_true, Bool.not_eq_true', List.isEmpty_eq_false_iff, List.all_eq_true]
  constructor
  · rintro ⟨h1, h2⟩
    exact ⟨dropNL name, ⟨h1, fun x hx => (htc x).1 (h2 x hx)⟩, dropNL_cases name⟩
  · rintro ⟨n, ⟨h1, h2⟩, hn⟩
    have hd : dropNL name = n := by
      rcases hn with rfl | rfl
      · unfold dropNL
        split
        · rename_i r hr
          exfalso
          have hm : '\n' ∈ name := by rw [← List.mem_reverse, hr]; simp
          exact h2 _ hm (by simp)
        · rfl
      · simp [dropNL]
    rw [hd]
    exact ⟨h1, fun x hx => (htc x).2 (h2 x hx)⟩

/-- C04: `serialize_start_tag` succeeds exactly when the element name and all attribute names are acceptable, up to
one trailing newline (which Python's `$` lets through); otherwise it raises. -/
theorem C04_start_tag_names (U : Uni) (o : TagOpts) (name : Str) (attrs : List (Str × Option Str)) :
    (serializeStartTag U o name attrs ≠ none) ↔
      (∃ n, NameOk n ∧ (name = n ∨ name = n ++ ['\n'])) ∧
      ∀ a ∈ attrs, ∃ n, AttrOk n ∧ (a.1 = n ∨ a.1 = n ++ ['\n']) := by
  have e : (∀ a ∈ attrs, ∃ n, AttrOk n ∧ (a.1 = n ∨ a.1 = n ++ ['\n'])) ↔
      attrs.all (fun a => validAttrName a.1) = true := by
    rw [List.all_eq_true]
    exact forall_congr' fun a => forall_congr' fun _ => (validAttrName_iff a.1).symm
  rw [← validTagName_iff, e]
  unfold serializeStartTag
  cases validTagName name <;> cases attrs.all (fun a => validAttrName a.1) <;> simp

/-- C04: likewise for `serialize_end_tag`. -/
theorem C04_end_tag_names (name : Str) :
    (serializeEndTag name ≠ none) ↔ ∃ n, NameOk n ∧ (name = n ∨ name = n ++ ['\n']) := by
  rw [← validTagName_iff]
  unfold serializeEndTag
  cases validTagName name <;> simp

example : serializeEndTag c%"a b" = none := by decide
example : serializeStartTag Uni.sample {} c%"p" [(c%"x/y", none)] = none := by decide
example : serializeStartTag Uni.sample {} c%"p" [(c%"title", some c%"a\"b")]
    = some c%"<p title='a\"b'>" := by decide

end JH
