import Verif.Spec.Url
import Verif.Spec.Reparse
/-! A URL that is read again (newlines normalised, U+0000 replaced) means no more to a browser than before (C107). -/
namespace JH.Spec

/-- U+FFFD for U+0000. -/
def fix0 (c : Char) : Char := if c = '\x00' then '\ufffd' else c

/-- The beginning of a URL as the parser sees it; nothing is trimmed at the end. -/
def urlFront (v : Str) : Str := (v.dropWhile c0OrSpace).filter fun c => !tabOrNewline c

theorem filter_asRead : ∀ r : Str, (asRead r).filter (fun c => !tabOrNewline c) = (r.filter fun c => !tabOrNewline c).map fix0 := by
  intro r
  induction r using asRead.induct with
  | case1 => rfl
  | case2 r ih => rw [asRead, List.filter_cons, List.filter_cons, List.filter_cons, ih]; rfl
  | case3 c r h ih =>
    rw [asRead, List.filter_cons, List.filter_cons, ih]
    · by_cases h1 : c = '\r'
      · subst h1; rfl
      · rw [if_neg h1]
        by_cases h2 : c = '\x00'
        · subst h2; rfl
        · rw [if_neg h2]
          split
          · rw [List.map_cons]; unfold fix0; rw [if_neg h2]
          · rfl
    · exact h

theorem front_asRead : ∀ v : Str, (∃ r, urlFront (asRead v) = '\ufffd' :: r) ∨ urlFront (asRead v) = (urlFront v).map fix0 := by
  intro v
  induction v using asRead.induct with
  | case1 => exact .inr rfl
  | case2 r ih => rw [asRead]; exact ih
  | case3 c r h ih =>
    rw [asRead]
    · by_cases h1 : c = '\r'
      · subst h1; exact ih
      · rw [if_neg h1]
        by_cases h2 : c = '\x00'
        · subst h2; exact .inl ⟨_, rfl⟩
        · rw [if_neg h2]
          by_cases h3 : c0OrSpace c = true
          · unfold urlFront at ih ⊢
            rw [List.dropWhile_cons_of_pos h3, List.dropWhile_cons_of_pos h3]
            exact ih
          · right
            unfold urlFront
            rw [List.dropWhile_cons_of_neg h3, List.dropWhile_cons_of_neg h3, List.filter_cons, List.filter_cons, filter_asRead]
            split
            · rw [List.map_cons]; unfold fix0; rw [if_neg h2]
            · rfl
    · exact h

theorem dropWhile_split {p : Char → Bool} : ∀ l : Str, ∃ t, l = t ++ l.dropWhile p ∧ ∀ c ∈ t, p c = true
  | [] => ⟨[], rfl, by simp⟩
  | a :: l => by
    by_cases h : p a = true
    · obtain ⟨t, h1, h2⟩ := dropWhile_split (p := p) l
      rw [List.dropWhile_cons_of_pos h]
      exact ⟨a :: t, by rw [List.cons_append, ← h1], fun c hc => (List.mem_cons.1 hc).elim (fun e => e ▸ h) (h2 c)⟩
    · rw [List.dropWhile_cons_of_neg h]
      exact ⟨[], rfl, by simp⟩

theorem front_input (v : Str) : ∃ t, urlFront v = urlInput v ++ t ∧ ∀ c ∈ t, c0OrSpace c = true := by
  unfold urlFront urlInput
  obtain ⟨t, h1, h2⟩ := dropWhile_split (p := c0OrSpace) (v.dropWhile c0OrSpace).reverse
  refine ⟨t.reverse.filter fun c => !tabOrNewline c, ?_, fun c hc => h2 c (by simpa using (List.mem_filter.1 hc).1)⟩
  rw [← List.filter_append]
  congr 1
  rw [← List.reverse_append, ← h1, List.reverse_reverse]

theorem c0_not {c : Char} (h : c0OrSpace c = true) : c ≠ ':' ∧ schemeChar c = false ∧ letter c = false ∧ slash c = false := by
  unfold c0OrSpace at h
  simp only [decide_eq_true_eq] at h
  have e : ∀ d : Char, 0x20 < d.toNat → c ≠ d := fun d hd e => by rw [e] at h; omega
  have lo : ∀ d : Char, 0x20 < d.toNat → (decide (d ≤ c)) = false := fun d hd => by
    simp only [decide_eq_false_iff_not, Char.le_def, UInt32.le_iff_toNat_le]
    exact fun hle => absurd (Nat.le_trans (show d.toNat ≤ c.toNat from hle) h) (by omega)
  have hl : letter c = false := by
    unfold letter
    rw [lo 'a' (by decide), lo 'A' (by decide)]; rfl
  refine ⟨e _ (by decide), ?_, hl, ?_⟩
  · unfold schemeChar
    rw [hl, lo '0' (by decide)]
    simp [e '+' (by decide), e '-' (by decide), e '.' (by decide)]
  · unfold slash
    simp [e '/' (by decide), e '\\' (by decide)]

theorem schemeTail_c0 : ∀ (t : Str), (∀ c ∈ t, c0OrSpace c = true) → schemeTail t = none
  | [], _ => rfl
  | c :: t, h => by
    obtain ⟨h1, h2, -, -⟩ := c0_not (h c (by simp))
    simp [schemeTail, h1, h2]

theorem schemeTail_append : ∀ (a t : Str), (∀ c ∈ t, c0OrSpace c = true) → (schemeTail (a ++ t)).map (·.1) = (schemeTail a).map (·.1)
  | [], t, h => by rw [List.nil_append, schemeTail_c0 t h]; rfl
  | c :: a, t, h => by
    have ih := schemeTail_append a t h
    simp only [List.cons_append, schemeTail]
    split
    · rfl
    · split
      · rw [Option.map_map, Option.map_map]
        have := congrArg (Option.map (c :: ·)) ih
        rw [Option.map_map, Option.map_map] at this
        exact this
      · rfl

theorem splitScheme_append (a t : Str) (h : ∀ c ∈ t, c0OrSpace c = true) : (splitScheme (a ++ t)).map (·.1) = (splitScheme a).map (·.1) := by
  cases a with
  | nil =>
    cases t with
    | nil => rfl
    | cons c t =>
      obtain ⟨-, -, h3, -⟩ := c0_not (h c (by simp))
      simp [splitScheme, h3]
  | cons c a =>
    simp only [List.cons_append, splitScheme]
    split
    · rw [Option.map_map, Option.map_map]
      have := congrArg (Option.map (c :: ·)) (schemeTail_append a t h)
      rw [Option.map_map, Option.map_map] at this
      exact this
    · rfl

theorem scheme_front (v : Str) : browserScheme v = (splitScheme (urlFront v)).map fun x => lowerA x.1 := by
  obtain ⟨t, h1, h2⟩ := front_input v
  have := congrArg (Option.map lowerA) (splitScheme_append (urlInput v) t h2)
  rw [Option.map_map, Option.map_map, ← h1] at this
  exact this.symm

theorem network_front (v : Str) : networkPath v = match urlFront v with | a :: b :: _ => slash a && slash b | _ => false := by
  obtain ⟨t, h1, h2⟩ := front_input v
  unfold networkPath
  rw [h1]
  cases hu : urlInput v with
  | nil =>
    cases t with
    | nil => rfl
    | cons c t =>
      cases t with
      | nil => rfl
      | cons d t => simp [(c0_not (h2 c (by simp))).2.2.2]
  | cons a l =>
    cases l with
    | nil =>
      cases t with
      | nil => rfl
      | cons c t => simp [(c0_not (h2 c (by simp))).2.2.2]
    | cons b l => rfl

theorem fix0_scheme {c : Char} (h : schemeChar (fix0 c) = true ∨ fix0 c = ':' ∨ letter (fix0 c) = true ∨ slash (fix0 c) = true) : fix0 c = c := by
  unfold fix0 at h ⊢
  split at h
  · exact absurd h (by decide)
  · next hc => rw [if_neg hc]

theorem schemeTail_fix : ∀ (a : Str) (n : Str), (schemeTail (a.map fix0)).map (·.1) = some n → (schemeTail a).map (·.1) = some n
  | [], n, h => h
  | c :: a, n, h => by
    simp only [List.map_cons, schemeTail] at h ⊢
    split at h
    · next hc =>
      have := fix0_scheme (.inr (.inl hc))
      rw [this] at hc
      rw [if_pos hc]; exact h
    · next hc =>
      split at h
      · next hs =>
        have hf := fix0_scheme (.inl hs)
        rw [hf] at hc hs h
        rw [if_neg hc, if_pos hs]
        rw [Option.map_map, Option.map_eq_some_iff] at h
        obtain ⟨x, hx, rfl⟩ := h
        have := schemeTail_fix a x.1 (by rw [hx]; rfl)
        rw [Option.map_eq_some_iff] at this
        obtain ⟨y, hy, hxy⟩ := this
        rw [hy]
        simp [hxy]
      · exact absurd h (by simp)

/-- Reading a URL again gives it no new scheme. -/
theorem scheme_read {v sc : Str} (h : browserScheme (asRead v) = some sc) : browserScheme v = some sc := by
  rw [scheme_front] at h ⊢
  rcases front_asRead v with ⟨r, e⟩ | e
  · rw [e] at h
    exact absurd h (by simp [splitScheme, show letter '\ufffd' = false by decide])
  · rw [e] at h
    cases hu : urlFront v with
    | nil => rw [hu] at h; exact absurd h (by simp [splitScheme])
    | cons c a =>
      rw [hu] at h
      simp only [List.map_cons, splitScheme] at h ⊢
      split at h
      · next hl =>
        have hf := fix0_scheme (.inr (.inr (.inl hl)))
        rw [hf] at hl h
        rw [if_pos hl]
        rw [Option.map_map, Option.map_eq_some_iff] at h
        obtain ⟨x, hx, rfl⟩ := h
        have := schemeTail_fix a x.1 (by rw [hx]; rfl)
        rw [Option.map_eq_some_iff] at this
        obtain ⟨y, hy, hxy⟩ := this
        rw [hy]
        simp [hxy]
      · exact absurd h (by simp)

/-- Reading a URL again gives it no host of its own. -/
theorem network_read {v : Str} (h : networkPath v = false) : networkPath (asRead v) = false := by
  rw [network_front] at h ⊢
  rcases front_asRead v with ⟨r, e⟩ | e
  · rw [e]
    cases r with
    | nil => rfl
    | cons b r => simp [show slash '\ufffd' = false by decide]
  · rw [e]
    cases hu : urlFront v with
    | nil => rfl
    | cons a l =>
      cases l with
      | nil => rfl
      | cons b l =>
        rw [hu] at h
        dsimp only at h
        simp only [List.map_cons]
        cases hs : (slash (fix0 a) && slash (fix0 b)) with
        | false => rfl
        | true =>
          rw [Bool.and_eq_true] at hs
          rw [fix0_scheme (.inr (.inr (.inr hs.1))), fix0_scheme (.inr (.inr (.inr hs.2)))] at hs
          rw [hs.1, hs.2] at h
          exact absurd h (by simp)

end JH.Spec
