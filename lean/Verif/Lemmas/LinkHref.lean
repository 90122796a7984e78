import Verif.Lemmas.Linkify

/-! Lemmas about link addresses. -/
namespace JH
open Spec

theorem lowerC_nonascii (c : Char) (h : isAscii c = false) : lowerC c = c := by
  have : isUpperC c = false := by
    simp only [isAscii, decide_eq_false_iff_not, Nat.not_lt] at h
    simp only [isUpperC, Bool.and_eq_false_iff, decide_eq_false_iff_not]
    right
    have : 'Z'.toNat = 90 := rfl
    omega
  simp [lowerC, this]

theorem pieces_prefix : ∀ (s : Str) (ps : List Str), List.Forall₂ LowerPiece s ps → ∀ p : Str, p.all isAscii = true → 'k' ∉ p →
    p.getLast? ≠ some 'i' → (p <+: ps.flatten ↔ p <+: lowerA s) := by
  intro s ps h
  induction h with
  | nil => intro p _ _ _; exact Iff.rfl
  | @cons c q s ps hc _ ih =>
    intro p ha hk hi
    cases p with
    | nil => simp
    | cons x p =>
      simp only [List.all_cons, Bool.and_eq_true] at ha
      simp only [List.mem_cons, not_or] at hk
      rw [LowerPiece] at hc
      have hrw : lowerA (c :: s) = lowerC c :: lowerA s := rfl
      rw [hrw, List.flatten_cons]
      by_cases hca : isAscii c = true
      · rw [if_pos hca] at hc
        subst hc
        rw [List.singleton_append, List.cons_prefix_cons, List.cons_prefix_cons]
        cases p with
        | nil => simp
        | cons y p =>
          rw [ih (y :: p) ha.2 hk.2 (by simpa [List.getLast?_cons_cons] using hi)]
      · rw [if_neg hca] at hc
        have hca' : isAscii c = false := by simpa using hca
        have hr : ¬ (x :: p) <+: lowerC c :: lowerA s := by
          rw [List.cons_prefix_cons, lowerC_nonascii c hca']
          rintro ⟨rfl, _⟩
          exact absurd ha.1 (by simp [hca'])
        refine ⟨fun hp => ?_, fun hp => absurd hp hr⟩
        exfalso
        rcases hc with rfl | rfl | ⟨d, rfl, hd⟩
        · simp only [List.cons_append, List.nil_append, List.cons_prefix_cons] at hp
          obtain ⟨rfl, hp⟩ := hp
          cases p with
          | nil => simp at hi
          | cons y p =>
            rw [List.cons_prefix_cons] at hp
            obtain ⟨rfl, _⟩ := hp
            simp only [List.all_cons, Bool.and_eq_true] at ha
            exact absurd ha.2.1 (by decide)
        · simp only [List.cons_append, List.nil_append, List.cons_prefix_cons] at hp
          exact hk.1 hp.1.symm
        · simp only [List.cons_append, List.nil_append, List.cons_prefix_cons] at hp
          rw [hp.1, hd] at ha
          exact absurd ha.1 (by simp)

theorem begins_iff (p s : Str) : Begins p s ↔ p <+: lowerA s := by
  constructor
  · rintro ⟨a, b, rfl, rfl⟩
    exact ⟨lowerA b, by simp [lowerA]⟩
  · rintro ⟨r, hr⟩
    refine ⟨s.take p.length, s.drop p.length, (List.take_append_drop _ _).symm, ?_⟩
    rw [lowerA, List.map_take]
    show List.take p.length (lowerA s) = p
    rw [← hr, List.take_left']
    rfl

/-- The prefix tests of the code on `text.lower()` are case-insensitive prefix tests on the text. -/
theorem lower_begins (E : LinkEnv) (p s : Str) (ha : p.all isAscii = true) (hk : 'k' ∉ p) (hi : p.getLast? ≠ some 'i') :
    startsWith p (E.U.lower s) = true ↔ Begins p s := by
  obtain ⟨ps, hps, he⟩ := E.lower_pieces s
  rw [startsWith, List.isPrefixOf_iff_prefix, he, pieces_prefix s ps hps p ha hk hi, begins_iff]

theorem low_http (E : LinkEnv) (s : Str) : startsWith c%"http://" (E.U.lower s) = true ↔ Begins c%"http://" s :=
  lower_begins E _ s (by decide) (by decide) (by decide)

theorem low_https (E : LinkEnv) (s : Str) : startsWith c%"https://" (E.U.lower s) = true ↔ Begins c%"https://" s :=
  lower_begins E _ s (by decide) (by decide) (by decide)

theorem low_ftp (E : LinkEnv) (s : Str) : startsWith c%"ftp://" (E.U.lower s) = true ↔ Begins c%"ftp://" s :=
  lower_begins E _ s (by decide) (by decide) (by decide)

theorem low_mailto (E : LinkEnv) (s : Str) : startsWith c%"mailto:" (E.U.lower s) = true ↔ Begins c%"mailto:" s :=
  lower_begins E _ s (by decide) (by decide) (by decide)

theorem low_slashes (E : LinkEnv) (s : Str) : startsWith c%"//" (E.U.lower s) = true ↔ Begins c%"//" s :=
  lower_begins E _ s (by decide) (by decide) (by decide)

theorem low_www (E : LinkEnv) (s : Str) : startsWith c%"www." (E.U.lower s) = true ↔ Begins c%"www." s :=
  lower_begins E _ s (by decide) (by decide) (by decide)

theorem low_scheme3 (E : LinkEnv) (s : Str) :
    hasScheme3 (E.U.lower s) = true ↔ Begins c%"http://" s ∨ Begins c%"https://" s ∨ Begins c%"ftp://" s := by
  rw [hasScheme3, Bool.or_eq_true, Bool.or_eq_true, low_http, low_https, low_ftp, or_assoc]

/-- The address before re-encoding is the text with its default scheme. -/
theorem hrefFor_default (E : LinkEnv) (t : Str) : ∃ pre, DefaultScheme t pre ∧ (hrefFor E.U t).1 = pre ++ t := by
  have h3 := low_scheme3 E t
  have hm := low_mailto E t
  have hs := low_slashes E t
  have hw := low_www E t
  rw [hrefFor]
  by_cases h1 : startsWith c%"mailto:" (E.U.lower t) = true
  · rw [if_pos h1]
    exact ⟨[], .own _ (by decide) (hm.1 h1), rfl⟩
  rw [if_neg h1]
  by_cases h2 : (hasScheme3 (E.U.lower t) || startsWith c%"//" (E.U.lower t)) = true
  · have : (!(hasScheme3 (E.U.lower t) || startsWith c%"//" (E.U.lower t) || startsWith c%"www." (E.U.lower t))) = false := by
      rw [h2]; rfl
    rw [this, Bool.and_false, if_neg (by simp), if_pos h2]
    rw [Bool.or_eq_true] at h2
    rcases h2 with h2 | h2
    · rcases h3.1 h2 with h | h | h
      · exact ⟨[], .own _ (by decide) h, rfl⟩
      · exact ⟨[], .own _ (by decide) h, rfl⟩
      · exact ⟨[], .own _ (by decide) h, rfl⟩
    · exact ⟨[], .own _ (by decide) (hs.1 h2), rfl⟩
  · have hn : ∀ p ∈ linkSchemes, ¬ Begins p t := by
      rw [Bool.or_eq_true, h3, hs] at h2
      rw [hm] at h1
      intro p hp hb
      simp only [linkSchemes, List.mem_cons, List.not_mem_nil, or_false] at hp
      rcases hp with rfl | rfl | rfl | rfl | rfl
      · exact h2 (.inl (.inl hb))
      · exact h2 (.inl (.inr (.inl hb)))
      · exact h2 (.inl (.inr (.inr hb)))
      · exact h1 hb
      · exact h2 (.inr hb)
    rw [if_neg h2]
    have h2' : (hasScheme3 (E.U.lower t) || startsWith c%"//" (E.U.lower t)) = false := by simpa using h2
    rw [h2', Bool.false_or]
    by_cases hat : (t.contains '@' && !startsWith c%"www." (E.U.lower t)) = true
    · rw [if_pos hat]
      simp only [Bool.and_eq_true, Bool.not_eq_true', List.contains_iff_mem] at hat
      exact ⟨_, .mail hat.1 (fun hb => by rw [hw.2 hb] at hat; simp at hat) hn, rfl⟩
    · rw [if_neg hat]
      refine ⟨_, .web ?_ hn, rfl⟩
      simp only [Bool.and_eq_true, Bool.not_eq_true', List.contains_iff_mem, not_and, Bool.not_eq_false] at hat
      by_cases ha : '@' ∈ t
      · exact .inr (hw.1 (hat ha))
      · exact .inl ha

theorem rsplit1_eq (sep : Char) (a r : Str) (h : sep ∉ r) : rsplit1 sep (a ++ sep :: r) = (a, r) := by
  have h1 : (a ++ sep :: r).reverse.takeWhile (· ≠ sep) = r.reverse := by
    have : (a ++ sep :: r).reverse = r.reverse ++ sep :: a.reverse := by simp
    rw [this]
    exact takeWhile_append_stopU _ _ _ _ (fun x hx => by
      have : x ≠ sep := by rintro rfl; exact h (List.mem_reverse.1 hx)
      simpa using this) (by simp)
  rw [rsplit1]
  rw [h1, List.reverse_reverse]
  have : (a ++ sep :: r).length - r.length - 1 = a.length := by simp; omega
  rw [this, List.take_left']
  rfl

theorem splitHost_eq (s : Str) : (splitHost s).1 ++ (splitHost s).2 = s := List.takeWhile_append_dropWhile

theorem splitHost_host (s : Str) (c : Char) (h : c ∈ (splitHost s).1) : c ≠ '/' ∧ c ≠ '?' ∧ c ≠ '#' := by
  have := takeWhile_prop _ s c h
  simp only [Bool.not_eq_true', Bool.or_eq_false_iff, decide_eq_false_iff_not] at this
  exact ⟨this.1.1, this.1.2, this.2⟩

/-- Re-encoding the authority. -/
theorem punycodeHostport_spec (E : LinkEnv) (hp : Str) (hh : ∀ c ∈ hp, c ≠ '/' ∧ c ≠ '?' ∧ c ≠ '#') (a : Str)
    (h : punycodeHostport E hp = some a) :
    ∃ u x host y w, hp = u ++ x ++ host ++ y ++ w ∧ a = u ++ E.idna host ++ w ∧ (x = [] ∨ x = ['@']) ∧ (y = [] ∨ y = [':']) ∧
      ∀ c ∈ host, c ∉ c%"/?#@:" := by
  rw [punycodeHostport] at h
  dsimp only at h
  have core : ∀ (ui hp2 : Str), '@' ∉ hp2 → (∀ c ∈ hp2, c ∈ hp) → ∃ host y w, hp2 = host ++ y ++ w ∧
      (if (partitionC ':' hp2).2.2.isEmpty then E.idna (partitionC ':' hp2).1
        else E.idna (partitionC ':' hp2).1 ++ ':' :: (partitionC ':' hp2).2.2) = E.idna host ++ w ∧ (y = [] ∨ y = [':']) ∧
      ∀ c ∈ host, c ∉ c%"/?#@:" := by
    intro _ hp2 hat hsub
    have bad : ∀ host : Str, (∀ c ∈ host, c ∈ hp2) → ':' ∉ host → ∀ c ∈ host, c ∉ c%"/?#@:" := by
      intro host hs hc c hm hb
      have h3 := hh c (hsub c (hs c hm))
      simp only [List.mem_cons, List.not_mem_nil, or_false] at hb
      rcases hb with rfl | rfl | rfl | rfl | rfl
      · exact h3.1 rfl
      · exact h3.2.1 rfl
      · exact h3.2.2 rfl
      · exact hat (hs _ hm)
      · exact hc hm
    by_cases hc : ':' ∈ hp2
    · obtain ⟨x, r, rfl, hx⟩ := mem_split_first ':' hp2 hc
      rw [partitionC_found ':' x r hx]
      dsimp only
      cases r with
      | nil => exact ⟨x, [':'], [], by simp, by simp, .inr rfl, bad x (fun c h => by simp [h]) hx⟩
      | cons y r => exact ⟨x, [], ':' :: y :: r, by simp, by simp, .inl rfl, bad x (fun c h => by simp [h]) hx⟩
    · rw [partitionC_none ':' hp2 hc]
      exact ⟨hp2, [], [], by simp, by simp, .inl rfl, bad hp2 (fun _ h => h) hc⟩
  by_cases hat : hp.contains '@' = true
  · rw [if_pos hat, if_pos hat] at h
    obtain ⟨u, r, rfl, hr⟩ := mem_split_last '@' hp (by simpa using hat)
    rw [rsplit1_eq '@' u r hr] at h
    dsimp only at h
    split at h
    · cases h
    obtain ⟨host, y, w, h1, h2, h3, h4⟩ := core u r hr (fun c hc => by simp [hc])
    rw [h2, Option.some.injEq] at h
    cases u with
    | nil =>
      exact ⟨[], ['@'], host, y, w, by simp [h1], by simpa using h.symm, .inr rfl, h3, h4⟩
    | cons z u =>
      refine ⟨z :: u ++ ['@'], [], host, y, w, by simp [h1], ?_, .inl rfl, h3, h4⟩
      rw [← h]; simp
  · rw [if_neg hat, if_neg hat] at h
    split at h
    · cases h
    obtain ⟨host, y, w, h1, h2, h3, h4⟩ := core [] hp (by simpa using hat) (fun c hc => hc)
    rw [h2, Option.some.injEq] at h
    exact ⟨[], [], host, y, w, by simpa using h1, by simpa using h.symm, .inl rfl, h3, h4⟩

theorem punycodeHref_spec (E : LinkEnv) (full : Str) : Reencoded E.idna full (punycodeHref E full) := by
  rw [punycodeHref]
  split
  · exact .inl rfl
  · rename_i n _
    dsimp only
    split
    · exact .inl rfl
    · rename_i a ha
      obtain ⟨u, x, host, y, w, h1, h2, h3, h4, h5⟩ := punycodeHostport_spec E _ (fun c hc => splitHost_host _ c hc) a ha
      refine .inr ⟨full.take n ++ u, x, host, y, w ++ (splitHost (full.drop n)).2, ?_, ?_, h3, h4, h5⟩
      · have := splitHost_eq (full.drop n)
        rw [h1] at this
        have hf := List.take_append_drop n full
        rw [← this] at hf
        refine hf.symm.trans ?_
        simp
      · rw [h2]; simp

theorem begins_take (p s r : Str) (h : Begins p s) : Begins p (s.take p.length ++ r) := by
  obtain ⟨a, b, rfl, rfl⟩ := h
  refine ⟨a, r, ?_, rfl⟩
  simp [lowerA]

/-- Re-encoding keeps the scheme. -/
theorem punycodeHref_begins (E : LinkEnv) (full p : Str) (hp : p ∈ linkSchemes) (h : Begins p full) :
    ∃ q ∈ linkSchemes, Begins q full ∧ Begins q (punycodeHref E full) := by
  have key : ∀ q ∈ linkSchemes, ∀ n, n = q.length → Begins q full → hrefPrefix (E.U.lower full) = some n →
      ∃ q ∈ linkSchemes, Begins q full ∧ Begins q (punycodeHref E full) := by
    intro q hq n hn hb he
    refine ⟨q, hq, hb, ?_⟩
    rw [punycodeHref, he]
    dsimp only
    split
    · exact hb
    · rw [hn, List.append_assoc]; exact begins_take q full _ hb
  by_cases hm : startsWith c%"mailto:" (E.U.lower full) = true
  · refine ⟨c%"mailto:", by decide, (low_mailto E full).1 hm, ?_⟩
    have : hrefPrefix (E.U.lower full) = none := by rw [hrefPrefix, if_pos hm]
    rw [punycodeHref, this]
    exact (low_mailto E full).1 hm
  by_cases h1 : startsWith c%"http://" (E.U.lower full) = true
  · exact key _ (by decide) 7 rfl ((low_http E full).1 h1) (by rw [hrefPrefix, if_neg hm, if_pos h1])
  by_cases h2 : startsWith c%"https://" (E.U.lower full) = true
  · exact key _ (by decide) 8 rfl ((low_https E full).1 h2) (by rw [hrefPrefix, if_neg hm, if_neg h1, if_pos h2])
  by_cases h3 : startsWith c%"ftp://" (E.U.lower full) = true
  · exact key _ (by decide) 6 rfl ((low_ftp E full).1 h3) (by rw [hrefPrefix, if_neg hm, if_neg h1, if_neg h2, if_pos h3])
  by_cases h4 : startsWith c%"//" (E.U.lower full) = true
  · exact key _ (by decide) 2 rfl ((low_slashes E full).1 h4)
      (by rw [hrefPrefix, if_neg hm, if_neg h1, if_neg h2, if_neg h3, if_pos h4])
  exfalso
  rw [low_mailto] at hm
  rw [low_http] at h1
  rw [low_https] at h2
  rw [low_ftp] at h3
  rw [low_slashes] at h4
  simp only [linkSchemes, List.mem_cons, List.not_mem_nil, or_false] at hp
  rcases hp with rfl | rfl | rfl | rfl | rfl <;> contradiction

end JH
