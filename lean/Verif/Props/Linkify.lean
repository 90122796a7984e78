import Verif.Lemmas.LinkHref
import Verif.Spec.Linkify

/-! C46, C47: the matches of the link finder and their addresses. -/
namespace JH
open Spec

/-- C46: every match is a non-empty slice of the text, at the offsets it states. -/
theorem C46_matches_exact (E : LinkEnv) (cfg : LinkCfg) (text : Str) (ms : List LinkMatch) (h : findLinks E cfg text = .ok ms)
    (m : LinkMatch) (hm : m ∈ ms) : ExactMatch text m := by
  obtain ⟨c, hc, he⟩ := findLinks_mem E cfg text ms h m hm
  obtain ⟨h1, h2, h3, _⟩ := linkOf_some E cfg text c ((cands_slices E.U text).1 c hc).1 m he
  have := slice_of_prefix text m.text m.start h1 h2
  have hpos := List.length_pos_iff.2 h2
  refine ⟨by omega, by omega, ?_⟩
  rw [h3]
  exact this.2

/-- C46: the matches are in increasing order and do not overlap. -/
theorem C46_matches_disjoint (E : LinkEnv) (cfg : LinkCfg) (text : Str) (ms : List LinkMatch) (h : findLinks E cfg text = .ok ms) :
    ms.Pairwise (fun a b => a.stop ≤ b.start) := findLinks_disjoint E cfg text ms h

/-- The hypothesis is met: two links, one with a trailing comma, one wrapped in parentheses. -/
example : findLinks LinkEnv.sample ⟨false, []⟩ c%"x http://a.b/c, (d@e.com)" =
    .ok [⟨2, 14, c%"http://a.b/c", c%"http://a.b/c", false⟩, ⟨17, 24, c%"d@e.com", c%"mailto:d@e.com", true⟩] := by decide +kernel

/-- C47: the address of a link begins with one of `http://`, `https://`, `ftp://`, `mailto:` and `//`. -/
theorem C47_href_scheme (E : LinkEnv) (cfg : LinkCfg) (text : Str) (ms : List LinkMatch) (h : findLinks E cfg text = .ok ms)
    (m : LinkMatch) (hm : m ∈ ms) : ∃ p ∈ linkSchemes, Begins p m.href := by
  obtain ⟨c, hc, he⟩ := findLinks_mem E cfg text ms h m hm
  obtain ⟨_, _, _, _, h5, _⟩ := linkOf_some E cfg text c ((cands_slices E.U text).1 c hc).1 m he
  obtain ⟨pre, hd, hf⟩ := hrefFor_default E m.text
  rw [h5, hf]
  cases hd with
  | own p hp hb => exact (punycodeHref_begins E _ p hp (by simpa using hb)).imp fun _ h => ⟨h.1, h.2.2⟩
  | mail => exact (punycodeHref_begins E _ c%"mailto:" (by decide) ⟨c%"mailto:", m.text, rfl, by decide⟩).imp fun _ h => ⟨h.1, h.2.2⟩
  | web => exact (punycodeHref_begins E _ c%"http://" (by decide) ⟨c%"http://", m.text, rfl, by decide⟩).imp fun _ h => ⟨h.1, h.2.2⟩

/-- C47: a link is reported as an e-mail link exactly when its address begins with `mailto:`. -/
theorem C47_email_kind (E : LinkEnv) (cfg : LinkCfg) (text : Str) (ms : List LinkMatch) (h : findLinks E cfg text = .ok ms)
    (m : LinkMatch) (hm : m ∈ ms) : m.email = true ↔ Begins c%"mailto:" m.href := by
  obtain ⟨c, hc, he⟩ := findLinks_mem E cfg text ms h m hm
  obtain ⟨_, _, _, _, h5, h6, _⟩ := linkOf_some E cfg text c ((cands_slices E.U text).1 c hc).1 m he
  rw [h5, h6]
  have other : ∀ p ∈ [c%"http://", c%"https://", c%"ftp://", c%"//"], ∀ t, Begins p t → ¬ Begins c%"mailto:" t := by
    rintro p hp t ⟨a, b, rfl, hl⟩ ⟨a', b', hab, hl'⟩
    cases a' with
    | nil => simp [lowerA] at hl'
    | cons y a' =>
      cases a with
      | nil => rw [← hl] at hp; exact absurd hp (by decide)
      | cons z a =>
        simp only [List.cons_append, List.cons.injEq] at hab
        simp only [lowerA, List.map_cons, List.cons.injEq] at hl hl'
        rw [hab.1] at hl
        simp only [List.mem_cons, List.not_mem_nil, or_false] at hp
        rcases hp with rfl | rfl | rfl | rfl <;> simp only [List.cons.injEq] at hl <;> rw [hl'.1] at hl <;> exact absurd hl.1 (by decide)
  have key : ∀ p ∈ [c%"http://", c%"https://", c%"ftp://", c%"//"], ∀ t, Begins p t → ¬ Begins c%"mailto:" (punycodeHref E t) := by
    intro p hp t hb
    obtain ⟨q, hq, h1, h2⟩ := punycodeHref_begins E t p (by
      simp only [List.mem_cons, List.not_mem_nil, or_false] at hp
      rcases hp with rfl | rfl | rfl | rfl <;> decide) hb
    simp only [linkSchemes, List.mem_cons, List.not_mem_nil, or_false] at hq
    rcases hq with rfl | rfl | rfl | rfl | rfl
    · exact other _ (by decide) _ h2
    · exact other _ (by decide) _ h2
    · exact other _ (by decide) _ h2
    · exact absurd h1 (other p hp t hb)
    · exact other _ (by decide) _ h2
  have mail : ∀ t, Begins c%"mailto:" t → Begins c%"mailto:" (punycodeHref E t) := by
    intro t hb
    obtain ⟨q, hq, h1, h2⟩ := punycodeHref_begins E t _ (by decide) hb
    simp only [linkSchemes, List.mem_cons, List.not_mem_nil, or_false] at hq
    rcases hq with rfl | rfl | rfl | rfl | rfl
    · exact absurd hb (other _ (by decide) _ h1)
    · exact absurd hb (other _ (by decide) _ h1)
    · exact absurd hb (other _ (by decide) _ h1)
    · exact h2
    · exact absurd hb (other _ (by decide) _ h1)
  have four : ∀ t, hasScheme3 (E.U.lower t) = true ∨ startsWith c%"//" (E.U.lower t) = true → ∃ p ∈ [c%"http://", c%"https://", c%"ftp://", c%"//"], Begins p t := by
    intro t ht
    rw [low_scheme3, low_slashes] at ht
    rcases ht with (ht | ht | ht) | ht <;> exact ⟨_, by decide, ht⟩
  rw [hrefFor]
  split
  · rename_i h1
    rw [low_mailto] at h1
    exact ⟨fun _ => mail _ h1, fun _ => rfl⟩
  · split
    · exact ⟨fun _ => mail _ ⟨c%"mailto:", m.text, rfl, by decide⟩, fun _ => rfl⟩
    · split
      · rename_i h3
        obtain ⟨p, hp, hb⟩ := four m.text (by simpa using h3)
        exact ⟨fun h => (by cases h), fun h => absurd h (key p hp _ hb)⟩
      · exact ⟨fun h => (by cases h), fun h => absurd h (key c%"http://" (by decide) _ ⟨c%"http://", m.text, rfl, by decide⟩)⟩

/-- C47: the address is the text of the link with its default scheme, and only the host is re-encoded. -/
theorem C47_href_of_text (E : LinkEnv) (cfg : LinkCfg) (text : Str) (ms : List LinkMatch) (h : findLinks E cfg text = .ok ms)
    (m : LinkMatch) (hm : m ∈ ms) : ∃ pre, DefaultScheme m.text pre ∧ Reencoded E.idna (pre ++ m.text) m.href := by
  obtain ⟨c, hc, he⟩ := findLinks_mem E cfg text ms h m hm
  obtain ⟨_, _, _, _, h5, _⟩ := linkOf_some E cfg text c ((cands_slices E.U text).1 c hc).1 m he
  obtain ⟨pre, hd, hf⟩ := hrefFor_default E m.text
  exact ⟨pre, hd, by rw [h5, hf]; exact punycodeHref_spec E _⟩

/-- C47: for an ASCII text the address is the text with its default scheme, up to the `@` of an empty user name and the `:` of an
empty port. -/
theorem C47_href_ascii (E : LinkEnv) (cfg : LinkCfg) (text : Str) (ms : List LinkMatch) (h : findLinks E cfg text = .ok ms)
    (m : LinkMatch) (hm : m ∈ ms) (ha : m.text.all isAscii = true) :
    ∃ pre u x host y w, DefaultScheme m.text pre ∧ pre ++ m.text = u ++ x ++ host ++ y ++ w ∧ m.href = u ++ host ++ w ∧
      (x = [] ∨ x = ['@']) ∧ (y = [] ∨ y = [':']) := by
  obtain ⟨pre, hd, hr⟩ := C47_href_of_text E cfg text ms h m hm
  rcases hr with hr | ⟨u, x, host, y, w, h1, h2, h3, h4, _⟩
  · exact ⟨pre, pre ++ m.text, [], [], [], [], hd, by simp, by simp [hr], .inl rfl, .inl rfl⟩
  · refine ⟨pre, u, x, host, y, w, hd, h1, ?_, h3, h4⟩
    have hpre : pre.all isAscii = true := by cases hd <;> decide
    have hall : (pre ++ m.text).all isAscii = true := by rw [List.all_append, hpre, ha]; rfl
    rw [h1] at hall
    simp only [List.all_append, Bool.and_eq_true] at hall
    rw [h2, E.idna_ascii host hall.1.1.2]

example : findLinks LinkEnv.sample ⟨false, []⟩ c%"HTTP://@a.b:/c" = .ok [⟨0, 14, c%"HTTP://@a.b:/c", c%"HTTP://a.b/c", false⟩] := by
  decide +kernel

end JH
