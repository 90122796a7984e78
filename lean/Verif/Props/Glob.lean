import Verif.Model.Glob
import Verif.Spec.Glob
import Verif.Lemmas.Py

/-! Property C51: glob patterns. -/
namespace JH
open Spec

theorem glob_allStars (p : Str) : Glob p [] ↔ p.all (· = '*') = true := by
  induction p with
  | nil => simp [Glob]
  | cons x p ih =>
    unfold Glob
    by_cases hx : x = '*'
    · subst hx
      simp only [if_true, List.all_cons, decide_true, Bool.true_and, ← ih]
      constructor
      · rintro ⟨a, b, h1, h2⟩
        have : b = [] := by simp at h1; exact h1.2
        rwa [← this]
      · intro h; exact ⟨[], [], rfl, h⟩
    · rw [if_neg hx]
      split
      · simp [hx]
      · simp [hx]

theorem glob_star (p t : Str) : Glob ('*' :: p) t ↔ ∃ k, Glob p (t.drop k) := by
  show (∃ a b, t = a ++ b ∧ Glob p b) ↔ _
  constructor
  · rintro ⟨a, b, rfl, h⟩; exact ⟨a.length, by simpa using h⟩
  · rintro ⟨k, h⟩; exact ⟨t.take k, t.drop k, by simp, h⟩

/-- A star-free prefix consumes exactly its length. -/
theorem glob_prefix (a p t : Str) (ha : '*' ∉ a) (h : Glob (a ++ p) t) : a.length ≤ t.length ∧ Glob p (t.drop a.length) := by
  induction a generalizing t with
  | nil => exact ⟨by simp, by simpa using h⟩
  | cons x a ih =>
    simp only [List.mem_cons, not_or] at ha
    rw [List.cons_append] at h
    unfold Glob at h
    rw [if_neg (Ne.symm ha.1)] at h
    split at h
    · obtain ⟨c, r, rfl, h⟩ := h
      have := ih r ha.2 h
      exact ⟨by simpa using this.1, by simpa using this.2⟩
    · obtain ⟨r, rfl, h⟩ := h
      have := ih r ha.2 h
      exact ⟨by simpa using this.1, by simpa using this.2⟩

/-- The claim made by a state of the loop. -/
def Claim (p t : Str) (star : Option (Str × Str)) : Prop :=
  Glob p t ∨ ∃ sp st, star = some (sp, st) ∧ ∃ k, 1 ≤ k ∧ k ≤ st.length ∧ Glob sp (st.drop k)

/-- How the remembered star relates to the current position. -/
def StarOk (p t : Str) (star : Option (Str × Str)) : Prop :=
  ∀ sp st, star = some (sp, st) → ∃ a b, sp = a ++ p ∧ st = b ++ t ∧ a.length = b.length ∧ '*' ∉ a

/-- Work left (lexicographic). -/
def globCost (T : Nat) (p t : Str) : Option (Str × Str) → Nat
  | none => ((p.length + 1) * (T + 1)) * (T + 1) + t.length
  | some (sp, st) => (sp.length * (T + 1) + st.length) * (T + 1) + t.length

theorem lex_lt {a b a' b' T : Nat} (h : a' < a) (hb : b' ≤ T) : a' * (T + 1) + b' < a * (T + 1) + b := by
  have : (a' + 1) * (T + 1) ≤ a * (T + 1) := Nat.mul_le_mul_right _ h
  rw [Nat.succ_mul] at this
  omega

theorem globLoop_spec (T : Nat) : ∀ (n : Nat) (p t : Str) (star : Option (Str × Str)),
    '*' ∉ t → t.length ≤ T → (∀ sp st, star = some (sp, st) → st.length ≤ T ∧ '*' ∉ st) → StarOk p t star →
    globCost T p t star < n →
    ∃ r, globLoop n p t star = some r ∧ (r = true ↔ Claim p t star) := by
  intro n
  induction n with
  | zero => intro p t star _ _ _ _ h; omega
  | succ n ih =>
    intro p t star ht hT hst hok hc
    cases t with
    | nil =>
      refine ⟨p.all (· = '*'), rfl, ?_⟩
      rw [← glob_allStars]
      constructor
      · exact .inl
      · rintro (h | ⟨sp, st, hs, k, hk1, hk2, hg⟩)
        · exact h
        · obtain ⟨a, b, h1, h2, h3, h4⟩ := hok sp st hs
          rw [h1] at hg
          have := (glob_prefix a p _ h4 hg).1
          rw [h2] at this hk2
          simp at this hk2
          omega
    | cons c t =>
      simp only [List.mem_cons, not_or] at ht
      simp only [List.length_cons] at hT
      -- the shape of the pattern
      by_cases h1 : (p.head? = some '?' ∨ p.head? = some c)
      · -- one character matches
        obtain ⟨x, p', rfl⟩ : ∃ x p', p = x :: p' := by
          cases p with
          | nil => simp at h1
          | cons x p' => exact ⟨x, p', rfl⟩
        simp only [List.head?_cons, Option.some.injEq] at h1
        have hxs : x ≠ '*' := by
          rcases h1 with rfl | rfl
          · decide
          · exact Ne.symm ht.1
        have hglob : Glob (x :: p') (c :: t) ↔ Glob p' t := by
          conv => lhs; unfold Glob
          rw [if_neg hxs]
          rcases h1 with rfl | rfl
          · rw [if_pos rfl]
            constructor
            · rintro ⟨c', r, e, h⟩; simp only [List.cons.injEq] at e; rw [e.2]; exact h
            · intro h; exact ⟨c, t, rfl, h⟩
          · split
            · constructor
              · rintro ⟨c', r, e, h⟩; simp only [List.cons.injEq] at e; rw [e.2]; exact h
              · intro h; exact ⟨_, t, rfl, h⟩
            · constructor
              · rintro ⟨r, e, h⟩; simp only [List.cons.injEq, true_and] at e; rw [e]; exact h
              · intro h; exact ⟨t, rfl, h⟩
        have hstep : globLoop (n + 1) (x :: p') (c :: t) star = globLoop n p' t star := by
          have : (decide ((x :: p').head? = some '?') || decide ((x :: p').head? = some c)) = true := by simpa using h1
          simp only [globLoop, this, if_true, List.tail_cons]
        obtain ⟨r, hr, hrc⟩ := ih p' t star ht.2 (by omega) hst
          (by
            intro sp st hs
            obtain ⟨a, b, e1, e2, e3, e4⟩ := hok sp st hs
            refine ⟨a ++ [x], b ++ [c], by simp [e1], by simp [e2], by simp [e3], ?_⟩
            simp [e4, Ne.symm hxs])
          (by
            cases star with
            | none =>
              have := lex_lt (a := (p'.length + 1 + 1) * (T + 1)) (b := t.length + 1) (a' := (p'.length + 1) * (T + 1)) (b' := t.length)
                (T := T) (by rw [Nat.succ_mul (p'.length + 1)]; omega) (by omega)
              simp only [globCost, List.length_cons] at hc ⊢
              omega
            | some s => simp only [globCost, List.length_cons] at hc ⊢; omega)
        refine ⟨r, by rw [hstep]; exact hr, ?_⟩
        rw [hrc]
        unfold Claim
        rw [hglob]
      · have hcond : ¬ ((decide (p.head? = some '?') || decide (p.head? = some c)) = true) := by simpa using h1
        by_cases h2 : p.head? = some '*'
        · -- a new star
          obtain ⟨p', rfl⟩ : ∃ p', p = '*' :: p' := by
            cases p with
            | nil => simp at h2
            | cons x p' => simp at h2; exact ⟨p', by rw [h2]⟩
          have hstep : globLoop (n + 1) ('*' :: p') (c :: t) star = globLoop n p' (c :: t) (some (p', c :: t)) := by
            simp only [globLoop, if_neg hcond, if_pos h2, List.tail_cons]
          obtain ⟨r, hr, hrc⟩ := ih p' (c :: t) (some (p', c :: t)) (by simp [ht]) (by simpa using hT)
            (by intro sp st hs; cases hs; exact ⟨by simpa using hT, by simp [ht]⟩)
            (by intro sp st hs; cases hs; exact ⟨[], [], rfl, rfl, rfl, by simp⟩)
            (by
              have key : ∀ S, p'.length < S → ((p'.length * (T + 1) + (c :: t).length) * (T + 1) + (c :: t).length) <
                  (S * (T + 1)) * (T + 1) + (t.length + 1) := by
                intro S hS
                have := lex_lt (a := S) (b := 0) (a' := p'.length) (b' := (c :: t).length) (T := T) hS (by simpa using hT)
                have := lex_lt (b := t.length + 1) (b' := (c :: t).length) (T := T) this (by simpa using hT)
                simpa using this
              cases star with
              | none =>
                have := key (p'.length + 1 + 1) (by omega)
                simp only [globCost, List.length_cons] at hc this ⊢
                omega
              | some s =>
                obtain ⟨sp, st⟩ := s
                obtain ⟨a, b, e1, e2, e3, e4⟩ := hok sp st rfl
                have := key sp.length (by rw [e1]; simp; omega)
                have hmul : sp.length * (T + 1) * (T + 1) ≤ (sp.length * (T + 1) + st.length) * (T + 1) :=
                  Nat.mul_le_mul_right _ (Nat.le_add_right _ _)
                simp only [globCost, List.length_cons] at hc this ⊢
                omega)
          refine ⟨r, by rw [hstep]; exact hr, ?_⟩
          rw [hrc]
          have hA : Claim p' (c :: t) (some (p', c :: t)) ↔ Glob ('*' :: p') (c :: t) := by
            rw [glob_star]
            constructor
            · rintro (h | ⟨sp, st, hs, k, -, -, hg⟩)
              · exact ⟨0, h⟩
              · cases hs; exact ⟨k, hg⟩
            · rintro ⟨k, h⟩
              by_cases hk : k = 0
              · subst hk; exact .inl h
              · by_cases hl : k ≤ (c :: t).length
                · exact .inr ⟨p', c :: t, rfl, k, by omega, hl, h⟩
                · refine .inr ⟨p', c :: t, rfl, (c :: t).length, by simp, Nat.le_refl _, ?_⟩
                  rw [List.drop_eq_nil_of_le (by omega)] at h
                  rwa [List.drop_eq_nil_of_le (Nat.le_refl _)]
          rw [hA]
          constructor
          · exact .inl
          · rintro (h | ⟨sp, st, hs, k, hk1, hk2, hg⟩)
            · exact h
            · obtain ⟨a, b, e1, e2, e3, e4⟩ := hok sp st hs
              rw [e1] at hg
              have hg' := (glob_prefix a _ _ e4 hg).2
              rw [List.drop_drop, e2, e3, Nat.add_comm, ← List.drop_drop, List.drop_left, glob_star] at hg'
              obtain ⟨j, hj⟩ := hg'
              rw [List.drop_drop] at hj
              rw [glob_star]
              exact ⟨_, hj⟩
        · -- mismatch
          have hno : ¬ Glob p (c :: t) := by
            cases p with
            | nil => simp [Glob]
            | cons x p' =>
              simp only [List.head?_cons, Option.some.injEq] at h1 h2
              simp only [not_or] at h1
              unfold Glob
              rw [if_neg h2, if_neg h1.1]
              rintro ⟨r, e, -⟩
              simp only [List.cons.injEq] at e
              exact h1.2 e.1.symm
          cases star with
          | none =>
            refine ⟨false, by simp only [globLoop, if_neg hcond, if_neg h2], ?_⟩
            simp only [Bool.false_eq_true, false_iff]
            rintro (h | ⟨sp, st, hs, -⟩)
            · exact hno h
            · cases hs
          | some s =>
            obtain ⟨sp, st⟩ := s
            obtain ⟨a, b, e1, e2, e3, e4⟩ := hok sp st rfl
            obtain ⟨hl, hs⟩ := hst sp st rfl
            have hstep : globLoop (n + 1) p (c :: t) (some (sp, st)) = globLoop n sp st.tail (some (sp, st.tail)) := by
              simp only [globLoop, if_neg hcond, if_neg h2]
            obtain ⟨d, st', rfl⟩ : ∃ d st', st = d :: st' := by
              cases st with
              | nil => simp at e2
              | cons d st' => exact ⟨d, st', rfl⟩
            simp only [List.tail_cons] at hstep
            simp only [List.mem_cons, not_or] at hs
            simp only [List.length_cons] at hl
            obtain ⟨r, hr, hrc⟩ := ih sp st' (some (sp, st')) hs.2 (by omega)
              (by intro sp1 st1 h; cases h; exact ⟨by omega, hs.2⟩)
              (by intro sp1 st1 h; cases h; exact ⟨[], [], rfl, rfl, rfl, by simp⟩)
              (by
                have := lex_lt (a := sp.length * (T + 1) + (st'.length + 1)) (b := t.length + 1) (a' := sp.length * (T + 1) + st'.length)
                  (b' := st'.length) (T := T) (by omega) (by omega)
                simp only [globCost, List.length_cons] at hc ⊢
                omega)
            refine ⟨r, by rw [hstep]; exact hr, ?_⟩
            rw [hrc]
            constructor
            · rintro (h | ⟨sp1, st1, h, k, hk1, hk2, hg⟩)
              · exact .inr ⟨sp, d :: st', rfl, 1, by omega, by simp, by simpa using h⟩
              · cases h
                exact .inr ⟨sp, d :: st', rfl, k + 1, by omega, by simp; omega, by simpa using hg⟩
            · rintro (h | ⟨sp1, st1, h, k, hk1, hk2, hg⟩)
              · exact absurd h hno
              · cases h
                obtain ⟨k, rfl⟩ : ∃ j, k = j + 1 := ⟨k - 1, by omega⟩
                rw [List.drop_succ_cons] at hg
                by_cases hk : k = 0
                · subst hk; exact .inl hg
                · exact .inr ⟨sp, st', rfl, k, by omega, by simp at hk2; omega, hg⟩

/-- Without wildcards a pattern matches only itself. -/
theorem glob_literal (p t : Str) (h1 : '*' ∉ p) (h2 : '?' ∉ p) : Glob p t ↔ p = t := by
  induction p generalizing t with
  | nil => simp [Glob, eq_comm]
  | cons x p ih =>
    simp only [List.mem_cons, not_or] at h1 h2
    unfold Glob
    rw [if_neg (Ne.symm h1.1), if_neg (Ne.symm h2.1)]
    constructor
    · rintro ⟨r, rfl, h⟩; rw [(ih r h1.2 h2.2).1 h]
    · rintro rfl; exact ⟨p, rfl, (ih p h1.2 h2.2).2 rfl⟩

/-- C51, partial: the matcher terminates and agrees with the rule for every pattern and every name without `*`. The full
claim (any name) is false, see `C51_star_in_name_fails`. -/
theorem C51_glob_partial (p t : Str) (ht : '*' ∉ t) : ∃ r, globMatch p t = some r ∧ (r = true ↔ Glob p t) := by
  unfold globMatch
  by_cases h1 : p = ['*']
  · subst h1
    exact ⟨true, by simp, by simp only [true_iff]; rw [glob_star]; exact ⟨t.length, by simp [Glob]⟩⟩
  · rw [if_neg h1]
    by_cases h2 : (!p.contains '*' && !p.contains '?') = true
    · rw [if_pos h2]
      simp only [Bool.and_eq_true, Bool.not_eq_true', List.contains_eq_mem, decide_eq_false_iff_not] at h2
      exact ⟨_, rfl, by rw [glob_literal p t h2.1 h2.2]; simp⟩
    · rw [if_neg h2]
      obtain ⟨r, hr, hc⟩ := globLoop_spec t.length ((p.length + 2) * ((t.length + 1) * (t.length + 1))) p t none ht (Nat.le_refl _)
        (by intro _ _ h; cases h) (by intro _ _ h; cases h) (by
          simp only [globCost]
          rw [Nat.mul_assoc, Nat.succ_mul (p.length + 1)]
          have : t.length + 1 ≤ (t.length + 1) * (t.length + 1) := Nat.le_mul_of_pos_left _ (by omega)
          omega)
      refine ⟨r, hr, ?_⟩
      rw [hc]
      constructor
      · rintro (h | ⟨_, _, h, -⟩)
        · exact h
        · cases h
      · exact .inl

/-- C51 fails for attribute names containing `*` (which HTML permits): the pattern's `*` is consumed as a literal when the
text has `*` at that place, and is then no wildcard any more: `on*` does not match `on*click`. -/
theorem C51_star_in_name_fails : ¬ ∀ p t : Str, ∃ r, globMatch p t = some r ∧ (r = true ↔ Glob p t) := by
  intro h
  obtain ⟨r, h1, h2⟩ := h c%"on*" c%"on*click"
  have h3 : globMatch c%"on*" c%"on*click" = some false := by decide
  rw [h3] at h1
  cases h1
  have : Glob c%"on*" c%"on*click" := by
    simp only [Glob]
    simp only [show ('o' = '*') = False by decide, show ('n' = '*') = False by decide, show ('o' = '?') = False by decide,
      show ('n' = '?') = False by decide, if_false, if_true]
    exact ⟨_, rfl, _, rfl, c%"*click", [], rfl, rfl⟩
  exact absurd (h2.2 this) (by decide)

example : globMatch c%"on*" c%"onclick" = some true ∧ globMatch c%"data-?-*x" c%"data-a-bcxyx" = some true ∧
  globMatch c%"on*" c%"title" = some false := by decide

end JH
