import Verif.Lemmas.EngSuffix
import Verif.Props.EngNodes

/-! C78: the parser reads its whole input and stops. -/
namespace JH.Props
open JH JH.Eng

/-- One round of the parser's loop `while pos < end`: a text run and the markup after it. A state is the unread text and the state of the parser. -/
def round (C : Cfg) (x : Str × St) : Str × St := if x.1 = [] then x else rangeStep x.1 C x.2

/-- `n` rounds. -/
def rounds (C : Cfg) : Nat → Str × St → Str × St
  | 0, x => x
  | n + 1, x => rounds C n (round C x)

theorem rangeLoop_rounds (C : Cfg) : ∀ (n : Nat) (s : Str) (st : St), s.length ≤ n → rounds C n (s, st) = ([], (rangeLoop n s C st).2)
  | 0, s, st, h => by
    have : s = [] := List.length_eq_zero_iff.1 (Nat.le_zero.1 h)
    rw [this]; rfl
  | n + 1, s, st, h => by
    unfold rounds round rangeLoop
    by_cases hs : s = []
    · rw [if_pos hs, hs]
      simp only [List.isEmpty_nil, ↓reduceIte]
      exact rangeLoop_rounds C n [] st (Nat.zero_le _) |>.trans (by cases n <;> rfl)
    · rw [if_neg hs, if_neg (by simpa using hs)]
      have hr := rangeStep_rest (C := C) s hs st
      have hl := hr.length_le
      have hp : 0 < s.length := List.length_pos_iff.2 hs
      rw [List.length_tail] at hl
      exact rangeLoop_rounds C n (rangeStep s C st).1 (rangeStep s C st).2 (by omega)

/-- C78 (whole input): whatever the input, the policy, the context and the state, the loop stops after at most as many rounds as the input has characters,
with nothing left unread, and the state then is the one that the parse goes on with. -/
theorem C78_whole_input_read (C : Cfg) (st : St) : rounds C C.html.length (C.html, st) = ([], (parseRange C st).2) :=
  rangeLoop_rounds C _ _ st (Nat.le_refl _)

/-- C78 (progress): a round on unread text leaves strictly less of it, and what is left is its end: nothing is read twice, nothing is made up. -/
theorem C78_round_reads (C : Cfg) (s : Str) (st : St) (hs : s ≠ []) : (round C (s, st)).1 <:+ s.tail := by
  unfold round
  rw [if_neg hs]
  exact rangeStep_rest s hs st

/-- Once nothing is left nothing changes. -/
theorem C78_rest (C : Cfg) (st : St) : ∀ n, rounds C n ([], st) = ([], st)
  | 0 => rfl
  | n + 1 => C78_rest C st n

example : (rounds (safeCfg UrlEnv.sample EntTables.sample false c%"<p>a<b>c") 2 (c%"<p>a<b>c", {})).1 = c%"c" := by decide +kernel

/-! ### The attribute scanners -/

theorem skipAttrsF_enough : ∀ (n : Nat) (s : Str), s.length < n → skipAttrsF (n + 1) s = skipAttrsF n s
  | 0, s, h => absurd h (Nat.not_lt_zero _)
  | n + 1, s, h => by
    unfold skipAttrsF
    split
    · rfl
    · rename_i c r hl
      have hr := (strip_cons hl).2
      split
      · rfl
      · split
        · rfl
        · split
          · exact skipAttrsF_enough n r (by omega)
          · split
            · rfl
            · rename_i v hv
              have := (value_suffix hl hv).2
              exact skipAttrsF_enough n _ (by dsimp only at this; omega)

theorem allAttrsF_enough (C : Cfg) : ∀ (n : Nat) (acc : Attrs) (s : Str), s.length < n → allAttrsF C (n + 1) acc s = allAttrsF C n acc s
  | 0, _, s, h => absurd h (Nat.not_lt_zero _)
  | n + 1, acc, s, h => by
    rw [allAttrsF.eq_def C (n + 1 + 1), allAttrsF.eq_def C (n + 1)]
    dsimp only
    split
    · rfl
    · rename_i c r hl
      have hr := (strip_cons hl).2
      split
      · rfl
      · split
        · rfl
        · split
          · exact allAttrsF_enough C n _ r (by omega)
          · split
            · rfl
            · rename_i v hv
              have := (value_suffix hl hv).2
              split
              · rfl
              · exact allAttrsF_enough C n _ _ (by dsimp only at this; omega)

theorem actionAttrsF_enough (C : Cfg) (a : TagAction) : ∀ (n : Nat) (acc : Attrs) (s : Str), s.length < n →
    actionAttrsF C a (n + 1) acc s = actionAttrsF C a n acc s
  | 0, _, s, h => absurd h (Nat.not_lt_zero _)
  | n + 1, acc, s, h => by
    rw [actionAttrsF.eq_def C a (n + 1 + 1), actionAttrsF.eq_def C a (n + 1)]
    dsimp only
    split
    · rfl
    · rename_i c r hl
      have hr := (strip_cons hl).2
      split
      · rfl
      · split
        · rfl
        · split
          · exact actionAttrsF_enough C a n _ r (by omega)
          · cases hv : rawValue (lstripP isHtmlSpace (r.dropWhile fun x => !isAttrStop x)) with
            | none => rfl
            | some v =>
              have := (value_suffix hl hv).2
              dsimp only
              have ih := fun acc => actionAttrsF_enough C a n acc v.2 (by omega)
              simp only [ih]

theorem splitAt1_shorter (c : Char) (s : Str) (p : Str × Str) (h : splitAt1 c s = some p) : p.2.length < s.length := by
  cases s with
  | nil => simp [splitAt1] at h
  | cons x s =>
    unfold splitAt1 at h
    by_cases hx : x = c
    · rw [if_pos hx] at h; simp only [Option.some.injEq] at h; rw [← h]; exact Nat.lt_succ_self _
    · rw [if_neg hx] at h
      cases hs : splitAt1 c s with
      | none => rw [hs] at h; simp at h
      | some q =>
        rw [hs] at h; simp only [Option.map_some, Option.some.injEq] at h
        rw [← h]
        exact Nat.lt_succ_of_le (splitAt1_suffix c s q hs).length_le

theorem skipSubF_enough (C : Cfg) (name : Str) : ∀ (n d : Nat) (s : Str), s.length < n → skipSubF C name (n + 1) d s = skipSubF C name n d s
  | 0, _, s, h => absurd h (Nat.not_lt_zero _)
  | n + 1, 0, s, h => rfl
  | n + 1, d + 1, s, h => by
    rw [skipSubF.eq_def C name (n + 1 + 1), skipSubF.eq_def C name (n + 1)]
    dsimp only
    split
    · rfl
    · rename_i r hs
      have hr : r.length < s.length := splitAt1_shorter _ _ _ hs
      have ih := fun d (t : Str) (ht : t.length ≤ r.length) => skipSubF_enough C name n d t (by omega)
      split
      · split
        · rfl
        · exact ih _ _ (List.drop_suffix _ _).length_le
      · have hr2 : (if r.head? = some '/' then r.tail else r).length ≤ r.length := by
          split
          · exact (List.tail_suffix _).length_le
          · exact Nat.le_refl _
        split
        · exact ih _ _ hr2
        · rename_i raw after ht
          have ha : after.length ≤ r.length := Nat.le_trans (tagName_suffix _ _ ht).length_le hr2
          have hg := Nat.le_trans (afterGt_suffix after).length_le ha
          split
          · rfl
          · split
            · rfl
            · split
              · rfl
              · split
                · split
                  · rfl
                  · exact ih _ _ (Nat.le_trans (List.drop_suffix _ _).length_le hg)
                · split
                  · exact ih _ _ hg
                  · exact ih _ _ hg

theorem enough {α : Type} (f : Nat → α) (k : Nat) (h : ∀ n, k ≤ n → f (n + 1) = f n) : ∀ n, k ≤ n → f n = f k := by
  intro n hn
  induction hn with
  | refl => rfl
  | step hn ih => rw [h _ hn, ih]

/-- C78 (attributes): the scanners of attributes stop by themselves: with any larger number of rounds they give the same answer. -/
theorem C78_attr_scan (C : Cfg) (a : TagAction) (s : Str) (n : Nat) (hn : s.length < n) :
    skipAttrsF n s = skipAttrs s ∧ allAttrsF C n [] s = allAttrs C s ∧ actionAttrsF C a n [] s = actionAttrsF C a (s.length + 1) [] s :=
  ⟨enough (fun n => skipAttrsF n s) _ (fun n h => skipAttrsF_enough n s h) n hn,
   enough (fun n => allAttrsF C n [] s) _ (fun n h => allAttrsF_enough C n [] s h) n hn,
   enough (fun n => actionAttrsF C a n [] s) _ (fun n h => actionAttrsF_enough C a n [] s h) n hn⟩

/-- C78 (skipped subtrees): so does the loop that skips `svg` and `math`. -/
theorem C78_skip_subtree (C : Cfg) (name s : Str) (n : Nat) (hn : s.length + 2 ≤ n) : skipSubF C name n 1 s = skipSubtree C name s :=
  enough (fun n => skipSubF C name n 1 s) _ (fun n h => skipSubF_enough C name n 1 s (by omega)) n hn

end JH.Props
