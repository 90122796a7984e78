import Verif.Lemmas.ErrScan
import Verif.Props.Stream
/-! Where the scan reports errors (C100). -/
namespace JH.Eng
open JH.Spec

theorem blank_eq (c : Char) : isHtmlSpace c = isBlank c := by
  simp only [isHtmlSpace, isBlank, List.mem_cons, List.not_mem_nil, or_false, Bool.decide_or, Bool.or_assoc]

theorem stop_iff (c : Char) : isTagStop c = true ↔ isBlank c = true ∨ c = '/' ∨ c = '>' := by
  simp only [isTagStop, isTagNameStop, isBlank, List.mem_cons, List.not_mem_nil, or_false, Bool.or_eq_true, decide_eq_true_eq]
  grind

theorem find_split {s : Str} {k : Nat} (h : find? c%"<" s = some k) : ∃ t r, s = t ++ '<' :: r ∧ t.length = k := by
  obtain ⟨h1, h2, -⟩ := find?_some h
  rw [startsWith_iff] at h2
  obtain ⟨r, hr⟩ := h2
  refine ⟨s.take k, r, ?_, by simp; omega⟩
  have : s.take k ++ s.drop k = s := List.take_append_drop k s
  rw [hr] at this
  exact this.symm

theorem tagEnd_spec : ∀ (s : Str) (q : Option Char) (k : Nat), findTagEnd q s = some k → s[k]? = some '>'
  | [], q, k, h => by cases q <;> simp [findTagEnd] at h
  | c :: s, some q, k, h => by
    rw [findTagEnd, Option.map_eq_some_iff] at h
    obtain ⟨j, hj, rfl⟩ := h
    exact tagEnd_spec s _ j hj
  | c :: s, none, k, h => by
    rw [findTagEnd] at h
    split at h
    · rw [Option.map_eq_some_iff] at h
      obtain ⟨j, hj, rfl⟩ := h
      exact tagEnd_spec s _ j hj
    · split at h
      · rename_i hc; cases h; simp [hc]
      · rw [Option.map_eq_some_iff] at h
        obtain ⟨j, hj, rfl⟩ := h
        exact tagEnd_spec s _ j hj

/-- A call that reports something real. -/
def Points (U : Uni) (html : Str) (fragment : Bool) (e : Emit) : Prop := e.pos < html.length ∧ Shows U html fragment e.pos e.code e.tag

theorem suffix_drop {s html : Str} (h : s <:+ html) : html.drop (html.length - s.length) = s := by
  obtain ⟨t, rfl⟩ := h
  rw [List.length_append, Nat.add_sub_cancel, List.drop_left]

theorem name_split (s : Str) : ∃ r, s = s.takeWhile (fun c => !isTagStop c) ++ r ∧
    (∀ c ∈ s.takeWhile (fun c => !isTagStop c), isBlank c = false ∧ c ≠ '/' ∧ c ≠ '>') ∧ (∀ c ∈ r.head?, isBlank c = true ∨ c = '/' ∨ c = '>') := by
  refine ⟨s.dropWhile (fun c => !isTagStop c), (List.takeWhile_append_dropWhile).symm, ?_, ?_⟩
  · intro c hc
    have := List.all_eq_true.1 (List.all_takeWhile (p := fun c => !isTagStop c) (l := s)) c hc
    have h2 : ¬ isTagStop c = true := by simpa using this
    rw [stop_iff, not_or, not_or, Bool.not_eq_true] at h2
    exact h2
  · intro c hc
    rw [← stop_iff]
    cases hd : s.dropWhile (fun c => !isTagStop c) with
    | nil => rw [hd] at hc; cases hc
    | cons x r =>
      rw [hd] at hc
      cases hc
      have := List.head?_dropWhile_not (fun c => !isTagStop c) s
      rw [hd] at this
      simpa using this

theorem suffix_trans_drop {s html t : Str} {r : Str} (h : s <:+ html) (e : s = t ++ r) (k : Nat) : r.drop k <:+ html :=
  (List.drop_suffix k r).trans ((show r <:+ s from ⟨t, e.symm⟩).trans h)

theorem scan_points (U : Uni) (fragment : Bool) (html : Str) : ∀ (n : Nat) (o : OpenTags) (s : Str), s <:+ html →
    ∀ e ∈ scanLoop U html.length n o s, Points U html fragment e
  | 0, o, s, hs, e, he => by cases he
  | n + 1, o, s, hs, e, he => by
    have ih := scan_points U fragment html n
    rw [scanLoop] at he
    cases hf : find? c%"<" s with
    | none => rw [hf] at he; cases he
    | some k =>
      rw [hf] at he
      obtain ⟨t, r0, hs0, rfl⟩ := find_split hf
      have e1 : s.drop t.length = '<' :: r0 := by rw [hs0, List.drop_left]
      have e2 : s.drop (t.length + 1) = r0 := by rw [← List.drop_drop, e1]; rfl
      have hsuf : '<' :: r0 <:+ html := (show '<' :: r0 <:+ s from ⟨t, hs0.symm⟩).trans hs
      have hpos : 0 < html.length := Nat.lt_of_lt_of_le (by simp) hsuf.length_le
      have hr0 : r0 <:+ html := (List.suffix_cons _ _).trans hsuf
      dsimp only at he
      rw [e1, e2] at he
      have eoft : Points U html fragment { code := c%"eof-in-tag", pos := html.length - 1 } :=
        ⟨by show html.length - 1 < _; omega, .tag (by show html.length - 1 + 1 = _; omega)⟩
      have eofc : Points U html fragment { code := c%"eof-in-comment", pos := html.length - 1 } :=
        ⟨by show html.length - 1 < _; omega, .comment (by show html.length - 1 + 1 = _; omega)⟩
      cases r0 with
      | nil => cases he
      | cons ch r =>
        have hr : r <:+ html := (List.suffix_cons _ _).trans hr0
        dsimp only at he
        by_cases h1 : ch = '!'
        · rw [if_pos h1] at he
          split at he
          · split at he
            · rw [List.mem_singleton] at he; rw [he]; exact eofc
            · exact ih o _ ((List.drop_suffix _ _).trans hr) e he
          · split at he
            · rw [List.mem_singleton] at he; rw [he]; exact eoft
            · exact ih o _ ((List.drop_suffix _ _).trans hr) e he
        · rw [if_neg h1] at he
          by_cases h2 : ch = '/'
          · rw [if_pos h2] at he
            split at he
            · split at he
              · exact ih o _ (List.nil_suffix) e he
              · exact ih o _ ((List.drop_suffix _ _).trans hr) e he
            · split at he
              · rw [List.mem_singleton] at he; rw [he]; exact eoft
              · have hd : ∀ a b, (r.drop a).drop b <:+ html := fun a b => (List.drop_suffix _ _).trans ((List.drop_suffix _ _).trans hr)
                split at he
                · rcases List.mem_cons.1 he with he | he
                  · rw [he]
                    refine ⟨?_, ?_⟩
                    · have := hsuf.length_le
                      simp only [List.length_cons] at this ⊢
                      omega
                    · obtain ⟨r1, g1, g2, g3⟩ := name_split r
                      refine .stray (name := r.takeWhile fun c => !isTagStop c) (r := r1) ?_ g2 g3
                      show html.drop (html.length - ('<' :: ch :: r).length) = _
                      rw [suffix_drop hsuf, h2, ← g1]
                      rfl
                  · exact ih o _ (hd _ _) e he
                · exact ih _ _ (hd _ _) e he
          · rw [if_neg h2] at he
            split at he
            · exact ih o _ hr0 e he
            · split at he
              · rw [List.mem_singleton] at he; rw [he]; exact eoft
              · exact ih _ _ ((List.drop_suffix _ _).trans ((List.drop_suffix _ _).trans hr0)) e he

/-! ### Doctype -/

theorem lowerC_doctype {c x : Char} (h : lowerC c = x) (hx : isAscii x = true) : isAscii c = true := by
  by_cases hc : isAscii c = true
  · exact hc
  · have : lowerC c = c := lowerC_eq_self (by
      cases hu : isUpperC c with
      | false => rfl
      | true =>
        exfalso
        apply hc
        simp only [isUpperC, Bool.and_eq_true, decide_eq_true_eq] at hu
        simp only [isAscii, decide_eq_true_eq]
        have : 'Z'.toNat = 90 := rfl
        omega)
    rw [this] at h
    rw [h]; exact hx

theorem lowerA_ascii_of {d n : Str} (h : lowerA d = n) (hn : n.all isAscii = true) : d.all isAscii = true := by
  rw [List.all_eq_true] at hn ⊢
  intro c hc
  exact lowerC_doctype (x := lowerC c) rfl (hn _ (by rw [← h]; exact List.mem_map_of_mem hc))

theorem hasDoctype_iff (html : Str) : HasDoctype html ↔ asciiStarts c%"<!doctype" (html.dropWhile isHtmlSpace) = true := by
  rw [asciiStarts_iff]
  constructor
  · rintro ⟨w, d, r, rfl, hw, hd⟩
    have ha := lowerA_ascii_of hd (by decide)
    refine ⟨d, r, ?_, ha, hd⟩
    refine (takeWhile_append_stop (p := isHtmlSpace) (fun c hc => by rw [blank_eq]; exact hw c hc) ?_).2
    intro c hc
    cases d with
    | nil => simp [lowerA] at hd
    | cons x d =>
      simp only [List.cons_append, List.head?_cons, Option.some.injEq] at hc
      subst hc
      have hx : lowerC x = '<' := (List.cons.inj hd).1
      cases hb : isHtmlSpace x with
      | false => rfl
      | true =>
        simp only [isHtmlSpace, Bool.or_eq_true, decide_eq_true_eq] at hb
        rcases hb with (((rfl | rfl) | rfl) | rfl) | rfl <;> exact absurd hx (by decide)
  · rintro ⟨a, t, h1, h2, h3⟩
    refine ⟨html.takeWhile isHtmlSpace, a, t, ?_, ?_, h3⟩
    · rw [← h1, List.takeWhile_append_dropWhile]
    · intro c hc
      rw [← blank_eq]
      exact List.all_eq_true.1 (List.all_takeWhile (p := isHtmlSpace) (l := html)) c hc

/-- What the check for a doctype reports. -/
theorem doctype_points (U : Uni) (html : Str) : (∀ e ∈ doctypeEmits U html, Points U html false e) ∧
    (((∀ c ∈ html, isBlank c = true) ∨ HasDoctype html) → doctypeEmits U html = []) ∧ (¬ ((∀ c ∈ html, isBlank c = true) ∨ HasDoctype html) → (doctypeEmits U html).length = 1) ∧
    ∀ e ∈ doctypeEmits U html, e.code = c%"expected-doctype-but-got-start-tag" ∨ e.code = c%"expected-doctype-but-got-chars" := by
  have hsplit : html.takeWhile isHtmlSpace ++ html.dropWhile isHtmlSpace = html := List.takeWhile_append_dropWhile
  have hbl : ∀ c ∈ html.takeWhile isHtmlSpace, isBlank c = true := fun c hc => by
    rw [← blank_eq]; exact List.all_eq_true.1 (List.all_takeWhile (p := isHtmlSpace) (l := html)) c hc
  have hD := hasDoctype_iff html
  unfold doctypeEmits
  dsimp only
  generalize hw : html.takeWhile isHtmlSpace = w at *
  generalize hR : html.dropWhile isHtmlSpace = R at *
  have hlen : html.length - R.length = w.length := by rw [← hsplit, List.length_append]; omega
  rw [hlen]
  cases R with
  | nil =>
    rw [if_pos (by simp)]
    refine ⟨by simp, fun _ => rfl, fun k => absurd (.inl ?_) k, by simp⟩
    rw [← hsplit, List.append_nil]; exact hbl
  | cons x R =>
    have hx : isBlank x = false := by
      have := List.head?_dropWhile_not isHtmlSpace html
      rw [hR, ← blank_eq] at *
      simpa using this
    have hnb : ¬ ∀ c ∈ html, isBlank c = true := fun k => by
      have := k x (by rw [← hsplit]; simp)
      rw [hx] at this; cases this
    by_cases hd : asciiStarts c%"<!doctype" (x :: R) = true
    · rw [if_pos (by simp [hd])]
      exact ⟨by simp, fun _ => rfl, fun k => absurd (.inr (hD.2 hd)) k, by simp⟩
    · have hnd : ¬ HasDoctype html := fun k => hd (hD.1 k)
      have hnn : ¬ ((∀ c ∈ html, isBlank c = true) ∨ HasDoctype html) := by
        rintro (k | k)
        · exact hnb k
        · exact hnd k
      rw [if_neg (by simpa using hd)]
      have hchars : Points U html false { code := c%"expected-doctype-but-got-chars", pos := w.length, tree := true } := by
        refine ⟨by show w.length < _; rw [← hsplit]; simp, .chars (c := x) (r := R) rfl hnd ?_ hx ?_⟩
        · show html.drop w.length = _
          rw [← hsplit, List.drop_left]
        · show ∀ y ∈ html.take w.length, _
          rw [← hsplit, List.take_left]; exact hbl
      split
      · rename_i c r heq
        obtain ⟨rfl, rfl⟩ := List.cons.inj heq
        split
        · rename_i hal
          have hstop : isTagStop c = false := by
            cases hs : isTagStop c with
            | false => rfl
            | true =>
              exfalso
              rw [stop_iff] at hs
              have : isAscii c = true ∧ isAsciiAlpha c = false := by
                rcases hs with hs | rfl | rfl
                · simp only [isBlank, List.mem_cons, List.not_mem_nil, or_false, decide_eq_true_eq] at hs
                  rcases hs with rfl | rfl | rfl | rfl | rfl <;> decide
                · decide
                · decide
              rw [U.isAlpha_ascii c this.1, this.2] at hal
              cases hal
          obtain ⟨r1, g1, g2, g3⟩ := name_split (c :: r)
          have hne : (c :: r).takeWhile (fun c => !isTagStop c) ≠ [] := by
            rw [List.takeWhile_cons, if_pos (by simp [hstop])]; simp
          have hhtml : html = w ++ '<' :: ((c :: r).takeWhile (fun c => !isTagStop c) ++ r1) := by rw [← g1, ← hsplit]
          have hl : html.length = w.length + (r.length + 2) := by rw [← hsplit]; simp
          split
          · refine ⟨?_, fun k => absurd k hnn, fun _ => rfl, by simp⟩
            intro e he
            rw [List.mem_singleton] at he
            rw [he]
            refine ⟨by show html.length - 1 < _; omega, ?_⟩
            exact .start rfl hnd hhtml hbl hne g2 g3 (by show w.length < html.length - 1; omega) (.inr (by show html.length - 1 + 1 = _; omega))
          · rename_i t ht
            have hgt := tagEnd_spec r none t ht
            have htl : t < r.length := by
              rcases Nat.lt_or_ge t r.length with h | h
              · exact h
              · rw [List.getElem?_eq_none h] at hgt; cases hgt
            refine ⟨?_, fun k => absurd k hnn, fun _ => rfl, by simp⟩
            intro e he
            rw [List.mem_singleton] at he
            rw [he]
            refine ⟨by show w.length + 2 + t < _; omega, ?_⟩
            refine .start rfl hnd hhtml hbl hne g2 g3 (by show w.length < w.length + 2 + t; omega) (.inl ?_)
            show html[w.length + 2 + t]? = _
            rw [← hsplit, List.getElem?_append_right (by omega), show w.length + 2 + t - w.length = t + 2 by omega]
            simpa using hgt
        · refine ⟨?_, fun k => absurd k hnn, fun _ => rfl, by simp⟩
          intro e he
          rw [List.mem_singleton] at he
          rw [he]; exact hchars
      · refine ⟨?_, fun k => absurd k hnn, fun _ => rfl, by simp⟩
        intro e he
        rw [List.mem_singleton] at he
        rw [he]; exact hchars

theorem null_points (U : Uni) (fragment : Bool) (html : Str) : ∀ e ∈ nullEmits (html.length + 1) 0 html, Points U html fragment e := by
  intro e he
  rw [nullEmits_eq html _ 0 (by omega), List.mem_map] at he
  obtain ⟨p, hp, rfl⟩ := he
  have hgt := nls_gt _ _ _ p hp
  have hm := nls_mem '\x00' html 0 (p - 1)
  rw [show 0 + (p - 1) + 1 = p by omega] at hm
  have hg := hm.1 hp
  refine ⟨?_, .null hg⟩
  show p - 1 < _
  rcases Nat.lt_or_ge (p - 1) html.length with h | h
  · exact h
  · rw [List.getElem?_eq_none h] at hg; cases hg

theorem emits_points (U : Uni) (fragment : Bool) (html : Str) : ∀ e ∈ scanEmits U fragment html, Points U html fragment e := by
  intro e he
  unfold scanEmits at he
  rw [List.mem_append, List.mem_append] at he
  rcases he with (he | he) | he
  · exact null_points U fragment html e he
  · cases fragment with
    | true => cases he
    | false => exact (doctype_points U html).1 e he
  · exact scan_points U fragment html _ _ _ (List.suffix_refl _) e he

/-- The codes of the loop. -/
theorem scan_codes (U : Uni) (html : Str) {n : Nat} {o : OpenTags} {s : Str} {e : Emit} (h : e ∈ scanLoop U html.length n o s) :
    e.code = c%"unexpected-end-tag" ∨ e.code = c%"eof-in-tag" ∨ e.code = c%"eof-in-comment" := by
  revert h
  induction n generalizing o s with
  | zero => intro h; cases h
  | succ n ih =>
    rw [scanLoop]
    intro h
    split at h
    · cases h
    · dsimp only at h
      split at h
      · cases h
      · repeat' (split at h)
        all_goals first
          | exact ih h
          | (rw [List.mem_singleton] at h; rw [h]; simp)
          | (rcases List.mem_cons.1 h with h | h; (rw [h]; simp); exact ih h)

/-! ### Unfinished tags and comments -/

theorem tagEnd_split : ∀ (n : Nat) (s : Str), s.length ≤ n → (∀ k, findTagEnd none s = some k → ∃ a b, Quoted a ∧ s = a ++ '>' :: b) ∧
    ∀ q k, findTagEnd (some q) s = some k → ∃ x a b, q ∉ x ∧ Quoted a ∧ s = x ++ q :: (a ++ '>' :: b)
  | _, [], _ => by constructor <;> intros <;> simp_all [findTagEnd]
  | 0, c :: s, h => by simp at h
  | n + 1, c :: s, h => by
    simp only [List.length_cons] at h
    obtain ⟨h1, h2⟩ := tagEnd_split n s (by omega)
    constructor
    · intro k hk
      rw [findTagEnd] at hk
      split at hk
      · rename_i hc
        obtain ⟨j, hj, -⟩ := Option.map_eq_some_iff.1 hk
        obtain ⟨x, a, b, g1, g2, rfl⟩ := h2 c j hj
        exact ⟨c :: (x ++ c :: a), b, .str (by simpa using hc) g1 g2, by simp⟩
      · rename_i hc
        simp only [Bool.or_eq_true, decide_eq_true_eq, not_or] at hc
        split at hk
        · rename_i he
          exact ⟨[], s, .nil, by rw [he]; rfl⟩
        · rename_i he
          obtain ⟨j, hj, -⟩ := Option.map_eq_some_iff.1 hk
          obtain ⟨a, b, g1, rfl⟩ := h1 j hj
          exact ⟨c :: a, b, .char hc.1 hc.2 he g1, rfl⟩
    · intro q k hk
      rw [findTagEnd] at hk
      obtain ⟨j, hj, -⟩ := Option.map_eq_some_iff.1 hk
      split at hj
      · rename_i hc
        obtain ⟨a, b, g1, rfl⟩ := h1 j hj
        exact ⟨[], a, b, by simp, g1, by rw [hc]; rfl⟩
      · rename_i hc
        obtain ⟨x, a, b, g1, g2, rfl⟩ := h2 q j hj
        exact ⟨c :: x, a, b, by simp only [List.mem_cons, not_or]; exact ⟨fun e => hc e.symm, g1⟩, g2, rfl⟩

theorem unclosed_iff (s : Str) : findTagEnd none s = none ↔ Unclosed s := by
  constructor
  · rintro h a b ha rfl
    rw [tagEnd_quoted ha] at h
    cases h
  · intro h
    cases hk : findTagEnd none s with
    | none => rfl
    | some k =>
      obtain ⟨a, b, h1, h2⟩ := (tagEnd_split _ s (Nat.le_refl _)).1 k hk
      exact absurd h2 (h a b h1)

theorem commentEnd_closed : ∀ (n : Nat) (s : Str), s.length ≤ n → commentEnd s = none → ∀ a b, s ≠ a ++ (c%"-->" ++ b)
  | n, [], _, _, a, b => by cases a <;> simp
  | 0, c :: s, h, _, a, b => by simp at h
  | n + 1, [c], h, hc, a, b => by
    rintro e
    have := congrArg List.length e
    simp at this
    omega
  | n + 1, c :: d :: s, h, hc, a, b => by
    simp only [List.length_cons] at h
    intro e
    by_cases hcd : c = '-' ∧ d = '-'
    · obtain ⟨rfl, rfl⟩ := hcd
      rw [commentEnd] at hc
      split at hc
      · cases hc
      · rename_i h1
        split at hc
        · cases hc
        · rename_i h2
          simp only [Bool.or_eq_true, not_or] at h2
          match a, e with
          | [], e =>
            obtain rfl : s = '>' :: b := by simpa using e
            exact h1 (by simp [startsWith, List.isPrefixOf])
          | [x], e =>
            have : s = '-' :: '>' :: b := by
              have := congrArg (List.drop 2) e
              simpa using this
            subst this
            exact h2.2 (by simp [startsWith, List.isPrefixOf])
          | x :: y :: a, e =>
            have e2 : s = a ++ (c%"-->" ++ b) := by
              have := congrArg (List.drop 2) e
              simpa using this
            exact commentEnd_closed n s (by omega) (by simpa using hc) a b e2
    · have hstep : commentEnd (c :: d :: s) = (commentEnd (d :: s)).map (· + 1) := by
        rw [commentEnd]
        rintro r rfl e
        exact hcd ⟨rfl, (List.cons.inj e).1⟩
      rw [hstep] at hc
      match a, e with
      | [], e =>
        simp at e
        exact hcd ⟨e.1, e.2.1⟩
      | x :: a, e =>
        have e2 : d :: s = a ++ (c%"-->" ++ b) := by
          have := congrArg (List.drop 1) e
          simpa using this
        exact commentEnd_closed n (d :: s) (by simp; omega) (by simpa using hc) a b e2

theorem commentEnd_cut : ∀ (n : Nat) (s : Str), s.length ≤ n → '>' ∉ s → commentEnd s = none
  | n, [], _, _ => rfl
  | 0, c :: s, h, _ => by simp at h
  | n + 1, [c], h, hc => by
    rw [commentEnd]
    · rfl
    · rintro r _ e; cases e
  | n + 1, c :: d :: s, h, hc => by
    simp only [List.length_cons] at h
    have hs : '>' ∉ s := fun k => hc (by simp [k])
    have hds : '>' ∉ d :: s := fun k => hc (List.mem_cons_of_mem _ k)
    by_cases hcd : c = '-' ∧ d = '-'
    · obtain ⟨rfl, rfl⟩ := hcd
      rw [commentEnd, if_neg, if_neg, commentEnd_cut n s (by omega) hs]
      · rfl
      · intro k
        simp only [Bool.or_eq_true, startsWith_iff] at k
        rcases k with ⟨r, rfl⟩ | ⟨r, rfl⟩ <;> exact hs (by simp)
      · intro k
        rw [startsWith_iff] at k
        obtain ⟨r, rfl⟩ := k
        exact hs (by simp)
    · have hstep : commentEnd (c :: d :: s) = (commentEnd (d :: s)).map (· + 1) := by
        rw [commentEnd]
        rintro r rfl e
        exact hcd ⟨rfl, (List.cons.inj e).1⟩
      rw [hstep, commentEnd_cut n (d :: s) (by simp; omega) hds]
      rfl

/-- The scan reports an unfinished tag or comment, and ends. -/
theorem scan_cut (U : Uni) (total n : Nat) (o : OpenTags) {z code : Str} (h : Cut z code) :
    scanLoop U total (n + 1) o z = [{ code := code, pos := total - 1 }] := by
  have hf : ∀ r : Str, find? c%"<" ('<' :: r) = some 0 := fun r => find_char '<' [] r (by simp)
  cases h with
  | @comment d hd =>
    show scanLoop U total (n + 1) o ('<' :: '!' :: (c%"--" ++ d)) = _
    have e2 : startsWith c%"--" (c%"--" ++ d) = true := startsWith_append _ _
    have e3 : commentEnd (c%"--" ++ d) = none := commentEnd_cut _ _ (Nat.le_refl _) (by simpa using hd)
    rw [scanLoop, hf]
    simp only [List.drop_succ_cons, List.drop_zero, Nat.zero_add, if_true, e2, e3]
  | @decl d h1 h2 =>
    show scanLoop U total (n + 1) o ('<' :: '!' :: d) = _
    have e3 := (unclosed_iff d).2 h2
    rw [scanLoop, hf]
    simp only [List.drop_succ_cons, List.drop_zero, Nat.zero_add, if_true, h1, e3, Bool.false_eq_true, if_false]
  | @start name attrs h1 h2 h3 =>
    obtain ⟨c, r, hc, ha, hx, hy⟩ := plain_alpha U h1
    have hn : readName U (name ++ attrs) = name := readName_plain U h1 fun c hc => (stop_iff c).2 (by rcases h2 c hc with h | h; exact .inl h; exact .inr (.inl h))
    have e4 : name ++ attrs = c :: (r ++ attrs) := by rw [hc]; rfl
    rw [scanLoop, hf]
    simp only [List.drop_succ_cons, List.drop_zero, Nat.zero_add]
    rw [e4]
    simp only [if_neg hx, if_neg hy, ha, Bool.not_true, Bool.false_eq_true, if_false]
    rw [← e4, hn, List.drop_left, (unclosed_iff attrs).2 h3]
  | @close name attrs h1 h2 h3 =>
    obtain ⟨c, r, hc, ha, hx, hy⟩ := plain_alpha U h1
    have hn : readName U (name ++ attrs) = name := readName_plain U h1 fun c hc => (stop_iff c).2 (by rcases h2 c hc with h | h; exact .inl h; exact .inr (.inl h))
    show scanLoop U total (n + 1) o ('<' :: '/' :: (name ++ attrs)) = _
    rw [scanLoop, hf]
    have e2 : (name ++ attrs).head?.any U.isAlpha = true := by rw [hc]; simp [ha]
    have e3 : ('/' : Char) ≠ '!' := by decide
    simp only [List.drop_succ_cons, List.drop_zero, Nat.zero_add, if_true, if_neg e3, e2, Bool.not_true, Bool.false_eq_true, if_false]
    rw [hn, List.drop_left, (unclosed_iff attrs).2 h3]

theorem lower_length (U : Uni) {s : Str} (h : '\u0130' ∉ s) : (U.lower s).length = s.length := by
  have : ∀ {a b : Str} {R : Char → Char → Prop}, List.Forall₂ R a b → b.length = a.length := by
    intro a b R h
    induction h with
    | nil => rfl
    | cons _ _ ih => simp [ih]
  exact this (U.lower_pos s h)

theorem scan_unfinished (U : Uni) (html : Str) (hI : '\u0130' ∉ html) : ∀ (n : Nat) (o : OpenTags) (s : Str), s <:+ html →
    ∀ e ∈ scanLoop U html.length n o s, Unfinished U html e.code
  | 0, o, s, hs, e, he => by cases he
  | n + 1, o, s, hs, e, he => by
    have ih := scan_unfinished U html hI n
    rw [scanLoop] at he
    cases hf : find? c%"<" s with
    | none => rw [hf] at he; cases he
    | some k =>
      rw [hf] at he
      obtain ⟨t, r0, hs0, rfl⟩ := find_split hf
      have e1 : s.drop t.length = '<' :: r0 := by rw [hs0, List.drop_left]
      have e2 : s.drop (t.length + 1) = r0 := by rw [← List.drop_drop, e1]; rfl
      have hsuf : '<' :: r0 <:+ html := (show '<' :: r0 <:+ s from ⟨t, hs0.symm⟩).trans hs
      have hr0 : r0 <:+ html := (List.suffix_cons _ _).trans hsuf
      dsimp only at he
      rw [e1, e2] at he
      cases r0 with
      | nil => cases he
      | cons ch r =>
        have hr : r <:+ html := (List.suffix_cons _ _).trans hr0
        obtain ⟨w, hw⟩ := hsuf
        have hIr : ∀ x : Str, x <:+ html → '\u0130' ∉ x := fun x hx k => hI (hx.subset k)
        have hname : ∀ x : Str, x <:+ html → ∃ m rest, x = m ++ rest ∧ (∀ y ∈ m, isBlank y = false ∧ y ≠ '/' ∧ y ≠ '>') ∧ x.drop (readName U x).length = rest := by
          intro x hx
          obtain ⟨r1, g1, g2, g3⟩ := name_split x
          refine ⟨_, r1, g1, g2, ?_⟩
          unfold readName
          have hl : '\u0130' ∉ x.takeWhile fun c => !isTagStop c := fun k => hIr x hx ((List.takeWhile_prefix _).subset k)
          rw [lower_length U hl]
          conv => lhs; arg 2; rw [g1]
          rw [List.drop_left]
        dsimp only at he
        by_cases h1 : ch = '!'
        · rw [if_pos h1] at he
          split at he
          · rename_i hst
            split at he
            · rename_i hce
              rw [List.mem_singleton] at he; rw [he]
              refine ⟨fun k => absurd (show _ = _ from k) (by dsimp only; decide), fun _ => ?_⟩
              obtain ⟨d, hd⟩ := startsWith_iff.1 hst
              refine ⟨w, d, by rw [← hw, h1, hd]; rfl, ?_⟩
              rw [isIn_false_iff]
              intro a b k
              rw [hd, k] at hce
              exact commentEnd_closed _ _ (Nat.le_refl _) hce (c%"--" ++ a) b (by simp)
            · exact ih o _ ((List.drop_suffix _ _).trans hr) e he
          · split at he
            · rename_i hte
              rw [List.mem_singleton] at he; rw [he]
              refine ⟨fun _ => ?_, fun k => absurd (show _ = _ from k) (by dsimp only; decide)⟩
              exact ⟨w, ch, [], r, hw.symm, .inl h1, by simp, (unclosed_iff r).1 hte⟩
            · exact ih o _ ((List.drop_suffix _ _).trans hr) e he
        · rw [if_neg h1] at he
          by_cases h2 : ch = '/'
          · rw [if_pos h2] at he
            split at he
            · split at he
              · exact ih o _ (List.nil_suffix) e he
              · exact ih o _ ((List.drop_suffix _ _).trans hr) e he
            · split at he
              · rename_i hte
                rw [List.mem_singleton] at he; rw [he]
                refine ⟨fun _ => ?_, fun k => absurd (show _ = _ from k) (by dsimp only; decide)⟩
                obtain ⟨m, rest, g1, g2, g3⟩ := hname r hr
                rw [g3] at hte
                exact ⟨w, ch, m, rest, by rw [← hw, ← g1], .inr (.inl h2), g2, (unclosed_iff rest).1 hte⟩
              · have hd : ∀ a b, (r.drop a).drop b <:+ html := fun a b => (List.drop_suffix _ _).trans ((List.drop_suffix _ _).trans hr)
                split at he
                · rcases List.mem_cons.1 he with he | he
                  · rw [he]
                    exact ⟨fun k => absurd (show _ = _ from k) (by dsimp only; decide), fun k => absurd (show _ = _ from k) (by dsimp only; decide)⟩
                  · exact ih o _ (hd _ _) e he
                · exact ih _ _ (hd _ _) e he
          · rw [if_neg h2] at he
            split at he
            · exact ih o _ hr0 e he
            · rename_i hal
              split at he
              · rename_i hte
                rw [List.mem_singleton] at he; rw [he]
                refine ⟨fun _ => ?_, fun k => absurd (show _ = _ from k) (by dsimp only; decide)⟩
                have hal' : U.isAlpha ch = true := by simpa using hal
                obtain ⟨m, rest, g1, g2, g3⟩ := hname (ch :: r) hr0
                rw [g3] at hte
                cases m with
                | nil =>
                  exfalso
                  have : rest = ch :: r := by rw [g1]; rfl
                  have hz : (ch :: r).drop (readName U (ch :: r)).length = ch :: r := by rw [g3, this]
                  have h0 : (readName U (ch :: r)).length = 0 := by
                    have := congrArg List.length hz
                    rw [List.length_drop] at this
                    simp only [List.length_cons] at this
                    omega
                  unfold readName at h0
                  rw [lower_length U fun k => hIr _ hr0 ((List.takeWhile_prefix _).subset k), List.length_eq_zero_iff] at h0
                  rw [List.takeWhile_cons] at h0
                  split at h0
                  · cases h0
                  · rename_i hs
                    have hs2 : isTagStop ch = true := by simpa using hs
                    rw [stop_iff] at hs2
                    have : isAscii ch = true ∧ isAsciiAlpha ch = false := by
                      rcases hs2 with hs2 | rfl | rfl
                      · simp only [isBlank, List.mem_cons, List.not_mem_nil, or_false, decide_eq_true_eq] at hs2
                        rcases hs2 with rfl | rfl | rfl | rfl | rfl <;> decide
                      · decide
                      · decide
                    rw [U.isAlpha_ascii ch this.1, this.2] at hal'
                    cases hal'
                | cons x m =>
                  obtain ⟨rfl, g1'⟩ := List.cons.inj g1
                  have g1' : r = m ++ rest := g1'
                  exact ⟨w, ch, m, rest, by rw [← hw, ← g1'], .inr (.inr hal'), fun y hy => g2 y (by simp [hy]), (unclosed_iff rest).1 hte⟩
              · exact ih _ _ ((List.drop_suffix _ _).trans ((List.drop_suffix _ _).trans hr0)) e he

end JH.Eng
