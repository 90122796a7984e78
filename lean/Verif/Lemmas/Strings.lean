import Verif.Lemmas.Py
import Verif.Model.TextOps
/-! Further facts about the string primitives. -/
namespace JH

theorem dropWhile_hd (p : Char → Bool) (s : Str) (y : Char) (h : (s.dropWhile p).head? = some y) : p y = false := by
  induction s with
  | nil => simp at h
  | cons c t ih =>
    rw [List.dropWhile_cons] at h
    split at h
    · exact ih h
    · rename_i hc
      simp at h
      subst h
      simpa using hc

theorem rstripP_prefix (p : Char → Bool) (s : Str) : ∃ t, s = rstripP p s ++ t ∧ t.all p = true := by
  refine ⟨(s.reverse.takeWhile p).reverse, ?_, ?_⟩
  · unfold rstripP
    rw [← List.reverse_append, List.takeWhile_append_dropWhile, List.reverse_reverse]
  · rw [List.all_eq_true]
    intro x hx
    rw [List.mem_reverse] at hx
    have : ∀ l : Str, x ∈ l.takeWhile p → p x = true := by
      intro l
      induction l with
      | nil => simp
      | cons c l ih =>
        rw [List.takeWhile_cons]
        split
        · rename_i hc
          intro h
          rcases List.mem_cons.mp h with rfl | h
          · exact hc
          · exact ih h
        · simp
    exact this _ hx

theorem stripP_last (p : Char → Bool) (s : Str) (y : Char) (h : (stripP p s).getLast? = some y) : p y = false := by
  unfold stripP rstripP at h
  rw [List.getLast?_reverse] at h
  exact dropWhile_hd p _ y h

theorem stripP_head (p : Char → Bool) (s : Str) (y : Char) (h : (stripP p s).head? = some y) : p y = false := by
  obtain ⟨t, ht, -⟩ := rstripP_prefix p (lstripP p s)
  have : (lstripP p s).head? = some y := by
    rw [ht, List.head?_append]
    unfold stripP at h
    rw [h]; rfl
  exact dropWhile_hd p s y this

theorem stripP_sub (p : Char → Bool) (s : Str) (x : Char) (h : x ∈ stripP p s) : x ∈ s := by
  obtain ⟨t, ht, -⟩ := rstripP_prefix p (lstripP p s)
  have : x ∈ lstripP p s := by rw [ht]; exact List.mem_append_left _ h
  exact (List.dropWhile_sublist p).mem this

theorem stripP_fix (p : Char → Bool) (o : Str) (h1 : ∀ y, o.head? = some y → p y = false)
    (h2 : ∀ y, o.getLast? = some y → p y = false) : stripP p o = o := by
  have hl : lstripP p o = o := by
    unfold lstripP
    cases o with
    | nil => rfl
    | cons c t => simp [h1 c rfl]
  unfold stripP
  rw [hl]
  unfold rstripP
  cases hr : o.reverse with
  | nil => simpa using hr.symm
  | cons c t =>
    have : p c = false := h2 c (by rw [← List.head?_reverse, hr]; rfl)
    simp only [List.dropWhile_cons, this, Bool.false_eq_true, if_false]
    rw [← hr, List.reverse_reverse]

theorem stripP_stripP (p : Char → Bool) (s : Str) : stripP p (stripP p s) = stripP p s :=
  stripP_fix p _ (stripP_head p s) (stripP_last p s)

theorem find_char (c : Char) (a r : Str) (h : c ∉ a) : find? [c] (a ++ c :: r) = some a.length := by
  induction a with
  | nil => simp [find?, startsWith]
  | cons x a ih =>
    simp only [List.mem_cons, not_or] at h
    simp only [List.cons_append, find?, List.length_cons]
    rw [if_neg, ih h.2]
    · rfl
    · simp [startsWith, List.isPrefixOf, h.1]

theorem find_char_none (c : Char) (s : Str) (h : c ∉ s) : find? [c] s = none := by
  cases hf : find? [c] s with
  | none => rfl
  | some k =>
    have := isIn_singleton.mp (show isIn [c] s = true by unfold isIn; rw [hf]; rfl)
    exact absurd this h

theorem mem_split_first (c : Char) (s : Str) (h : c ∈ s) : ∃ a r, s = a ++ c :: r ∧ c ∉ a := by
  induction s with
  | nil => simp at h
  | cons x s ih =>
    by_cases hx : x = c
    · exact ⟨[], s, by rw [hx]; rfl, by simp⟩
    · obtain ⟨a, r, e, ha⟩ := ih (by rcases List.mem_cons.mp h with h | h; exact absurd h.symm hx; exact h)
      exact ⟨x :: a, r, by rw [e]; rfl, by simp [ha, Ne.symm hx]⟩

theorem mem_split_last (c : Char) (s : Str) (h : c ∈ s) : ∃ a r, s = a ++ c :: r ∧ c ∉ r := by
  obtain ⟨a, r, e, ha⟩ := mem_split_first c s.reverse (by simpa using h)
  refine ⟨r.reverse, a.reverse, ?_, by simpa using ha⟩
  have := congrArg List.reverse e
  simpa using this

theorem partitionC_found (c : Char) (a r : Str) (h : c ∉ a) : partitionC c (a ++ c :: r) = (a, true, r) := by
  induction a with
  | nil => simp [partitionC]
  | cons x a ih =>
    simp only [List.mem_cons, not_or] at h
    simp only [List.cons_append, partitionC]
    rw [if_neg (Ne.symm h.1), ih h.2]

theorem partitionC_none (c : Char) (s : Str) (h : c ∉ s) : partitionC c s = (s, false, []) := by
  induction s with
  | nil => rfl
  | cons x s ih =>
    simp only [List.mem_cons, not_or] at h
    simp only [partitionC]
    rw [if_neg (Ne.symm h.1), ih h.2]

theorem partitionC_eq (c : Char) (s a r : Str) (b : Bool) (h : partitionC c s = (a, b, r)) :
    (b = true ∧ s = a ++ c :: r ∧ c ∉ a) ∨ (b = false ∧ a = s ∧ c ∉ s ∧ r = []) := by
  by_cases hc : c ∈ s
  · obtain ⟨a', r', e, ha⟩ := mem_split_first c s hc
    rw [e, partitionC_found c a' r' ha] at h
    obtain ⟨rfl, rfl, rfl⟩ := by simpa using h
    exact .inl ⟨rfl, e, ha⟩
  · rw [partitionC_none c s hc] at h
    obtain ⟨rfl, rfl, rfl⟩ := by simpa using h
    exact .inr ⟨rfl, rfl, hc, rfl⟩

theorem takeWhile_append_stopU (p : Char → Bool) (a : Str) (c : Char) (r : Str) (ha : ∀ x ∈ a, p x = true) (hc : p c = false) :
    (a ++ c :: r).takeWhile p = a := by
  induction a with
  | nil => simp [hc]
  | cons x a ih =>
    rw [List.cons_append, List.takeWhile_cons, if_pos (ha x (by simp)), ih (fun y hy => ha y (by simp [hy]))]

theorem takeWhile_all (p : Char → Bool) (a : Str) (ha : ∀ x ∈ a, p x = true) : a.takeWhile p = a := by
  induction a with
  | nil => rfl
  | cons x a ih =>
    rw [List.takeWhile_cons, if_pos (ha x (by simp)), ih (fun y hy => ha y (by simp [hy]))]

theorem takeWhile_prop (p : Char → Bool) (s : Str) (x : Char) (h : x ∈ s.takeWhile p) : p x = true := by
  induction s with
  | nil => simp at h
  | cons c l ih =>
    rw [List.takeWhile_cons] at h
    split at h
    · rename_i hc
      rcases List.mem_cons.mp h with rfl | h
      · exact hc
      · exact ih h
    · simp at h

/-- The pieces of `str.split()`: non-empty and free of separators. -/
theorem splitWs_pieces (sp : Char → Bool) (s : Str) : ∀ w : Str, (∀ x ∈ w, sp x = false) →
    ∀ t ∈ splitWs sp w s, t ≠ [] ∧ ∀ x ∈ t, sp x = false := by
  induction s with
  | nil =>
    intro w hw t ht
    unfold splitWs at ht
    split at ht
    · simp at ht
    · rename_i hne
      simp at ht
      subst ht
      exact ⟨by simpa using hne, by simpa using hw⟩
  | cons c s ih =>
    intro w hw t ht
    unfold splitWs at ht
    split at ht
    · split at ht
      · exact ih [] (by simp) t ht
      · rename_i hne
        rcases List.mem_cons.mp ht with rfl | ht
        · exact ⟨by simpa using hne, by simpa using hw⟩
        · exact ih [] (by simp) t ht
    · rename_i hc
      exact ih (c :: w) (by intro x hx; rcases List.mem_cons.mp hx with rfl | hx; simpa using hc; exact hw x hx) t ht

end JH
