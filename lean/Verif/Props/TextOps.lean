import Verif.Model.TextOps
import Verif.Spec.TextOps
import Verif.Lemmas.Py

/-! Properties C11, C44, C52, C55. -/
namespace JH
open Spec

/-! ### C44 -/

/-- C44: an element at position `i` matches `An+B` exactly when `i = A·n + B` for some `n ≥ 0`, for all integers. -/
theorem C44_nth (i a b : Int) : matchesNth i a b = true ↔ ∃ n : Nat, i = a * n + b := by
  unfold matchesNth
  have key : ∀ d : Int, d.fmod a = 0 ↔ a ∣ d := fun d => (Int.dvd_iff_fmod_eq_zero).symm
  by_cases h0 : a = 0
  · subst h0; simp
  · rw [if_neg h0]
    by_cases h1 : a > 0
    · rw [if_pos h1]
      simp only [Bool.and_eq_true, decide_eq_true_eq, key]
      constructor
      · rintro ⟨h2, k, hk⟩
        have hk0 : 0 ≤ k := by
          apply Classical.byContradiction
          intro hn
          have : a * k < 0 := Int.mul_neg_of_pos_of_neg h1 (by omega)
          omega
        exact ⟨k.toNat, by rw [Int.toNat_of_nonneg hk0]; omega⟩
      · rintro ⟨n, rfl⟩
        have : 0 ≤ a * (n : Int) := Int.mul_nonneg (by omega) (by omega)
        exact ⟨by omega, n, by omega⟩
    · rw [if_neg h1]
      simp only [Bool.and_eq_true, decide_eq_true_eq, key]
      constructor
      · rintro ⟨h2, k, hk⟩
        have hk0 : 0 ≤ k := by
          apply Classical.byContradiction
          intro hn
          have : 0 < a * k := Int.mul_pos_of_neg_of_neg (by omega) (by omega)
          omega
        exact ⟨k.toNat, by rw [Int.toNat_of_nonneg hk0]; omega⟩
      · rintro ⟨n, rfl⟩
        have : a * (n : Int) ≤ 0 := Int.mul_nonpos_of_nonpos_of_nonneg (by omega) (by omega)
        exact ⟨by omega, n, by omega⟩

example : matchesNth 5 2 1 = true ∧ matchesNth 2 (-1) 3 = true ∧ matchesNth 4 (-1) 3 = false ∧ matchesNth 4 0 4 = true := by decide

/-! ### C52 -/

theorem ws_eq (c : Char) : isHtmlSpace c = ws c := by
  unfold isHtmlSpace ws
  rw [Bool.eq_iff_iff]
  simp only [Bool.or_eq_true, decide_eq_true_eq, List.mem_cons, List.not_mem_nil, or_false]
  constructor
  · rintro ((((h | h) | h) | h) | h) <;> simp [h]
  · rintro (h | h | h | h | h) <;> simp [h]

/-- The first word of a text that starts with a non-space. -/
theorem words_cons (c : Char) (t : Str) (h : ws c = false) :
    words (c :: t) = (c :: t.takeWhile (fun x => !ws x)) :: words (t.dropWhile (fun x => !ws x)) := by
  induction t generalizing c with
  | nil => simp [words, h]
  | cons d t ih =>
    rw [words]
    simp only [h, Bool.false_eq_true, if_false]
    by_cases hd : ws d = true
    · simp [hd]
    · have hd' : ws d = false := by simpa using hd
      simp only [hd', Bool.false_eq_true, if_false, ih d hd', Bool.not_false, List.takeWhile_cons, List.dropWhile_cons, if_true]

theorem words_ws (c : Char) (t : Str) (h : ws c = true) : words (c :: t) = words t := by
  simp [words, h]

theorem collapseLoop_takeWhile (b : Bool) (t : Str) :
    (collapseLoop b t).takeWhile (fun x => !ws x) = (if b then (collapseLoop b t).takeWhile (fun x => !ws x) else t.takeWhile (fun x => !ws x)) := by
  cases b with
  | true => rfl
  | false =>
    simp only [Bool.false_eq_true, if_false]
    induction t with
    | nil => rfl
    | cons c t ih =>
      by_cases hc : ws c = true
      · simp [collapseLoop, ws_eq, hc, show ws ' ' = true by decide]
      · simp [collapseLoop, ws_eq, hc, ih]

theorem collapseLoop_dropWhile (t : Str) :
    (collapseLoop false t).dropWhile (fun x => !ws x) = collapseLoop false (t.dropWhile (fun x => !ws x)) := by
  induction t with
  | nil => rfl
  | cons c t ih =>
    by_cases hc : ws c = true
    · simp [collapseLoop, ws_eq, hc, show ws ' ' = true by decide]
    · simp [collapseLoop, ws_eq, hc, ih]

theorem words_collapseLoop (n : Nat) : ∀ (t : Str) (b : Bool), t.length ≤ n → words (collapseLoop b t) = words t := by
  induction n with
  | zero => intro t b h; have : t = [] := by simpa using h
            subst this; rfl
  | succ n ih =>
    intro t b h
    cases t with
    | nil => rfl
    | cons c t =>
      simp only [List.length_cons] at h
      by_cases hc : ws c = true
      · rw [words_ws c t hc]
        simp only [collapseLoop, ws_eq, hc, if_true]
        cases b with
        | true => simpa using ih t true (by omega)
        | false =>
          simp only [Bool.false_eq_true, if_false]
          rw [words_ws _ _ (by decide)]
          exact ih t true (by omega)
      · have hc' : ws c = false := by simpa using hc
        simp only [collapseLoop, ws_eq, hc', Bool.false_eq_true, if_false]
        rw [words_cons _ _ hc', words_cons _ _ hc', collapseLoop_dropWhile]
        have := collapseLoop_takeWhile false t
        simp only [Bool.false_eq_true, if_false] at this
        rw [this, ih _ false]
        exact Nat.le_trans (List.dropWhile_sublist _).length_le (by omega)

/-- The fast path of `collapse` only takes texts the loop would not change. -/
theorem collapseLoop_fast (t : Str) : ∀ b : Bool, (b = true → t.head? ≠ some ' ') → t.any isFormattingSpace = false → isIn c%"  " t = false →
    collapseLoop b t = t := by
  induction t with
  | nil => intros; rfl
  | cons c t ih =>
    intro b hb h1 h2
    simp only [List.any_cons, Bool.or_eq_false_iff] at h1
    have h2' : isIn c%"  " t = false := by
      rw [isIn_false_iff] at h2 ⊢
      intro a b' e
      exact h2 (c :: a) b' (by rw [e]; simp)
    by_cases hc : c = ' '
    · subst hc
      have hbf : b = false := by
        cases b with
        | false => rfl
        | true => exact absurd rfl (hb rfl)
      subst hbf
      simp only [collapseLoop, show isHtmlSpace ' ' = true by decide, if_true, Bool.false_eq_true, if_false]
      rw [ih true _ h1.2 h2']
      intro _ hh
      cases t with
      | nil => simp at hh
      | cons d t =>
        simp at hh; subst hh
        rw [isIn_false_iff] at h2
        exact h2 [] t rfl
    · have hns : isHtmlSpace c = false := by
        have := h1.1
        simp only [isFormattingSpace, Bool.or_eq_false_iff, decide_eq_false_iff_not] at this
        simp [isHtmlSpace, hc, this]
      simp only [collapseLoop, hns, Bool.false_eq_true, if_false]
      rw [ih false (by simp) h1.2 h2']

theorem collapse_eq (t : Str) : collapse t = collapseLoop false t := by
  unfold collapse
  split
  · rename_i h
    simp only [Bool.and_eq_true, Bool.not_eq_true'] at h
    exact (collapseLoop_fast t false (by simp) h.1 h.2).symm
  · rfl

/-- C52: the words of the text, and their order, are unchanged. -/
theorem C52_words_kept (t : Str) : words (collapse t) = words t := by
  rw [collapse_eq]; exact words_collapseLoop t.length t false (Nat.le_refl _)

theorem collapseLoop_head (b : Bool) (t : Str) (h : ∃ x, (collapseLoop b t).head? = some x ∧ ws x = true) : b = false := by
  cases b with
  | false => rfl
  | true =>
    exfalso
    induction t with
    | nil => simp [collapseLoop] at h
    | cons c t ih =>
      by_cases hc : ws c = true
      · simp only [collapseLoop, ws_eq, hc, if_true] at h; exact ih h
      · simp only [collapseLoop, ws_eq, hc, Bool.false_eq_true, if_false] at h
        obtain ⟨x, hx, hw⟩ := h
        simp at hx; subst hx; exact hc hw

/-- C52: no two adjacent white space characters remain, and all white space is plain spaces. -/
theorem C52_single_spaces (t : Str) :
    NoAdjacentWs (collapse t) ∧ ∀ c ∈ collapse t, ws c = true → c = ' ' := by
  rw [collapse_eq]
  have key : ∀ (t : Str) (b : Bool), (∀ a x y r, collapseLoop b t = a ++ x :: y :: r → ¬ (ws x = true ∧ ws y = true)) ∧
      ∀ c ∈ collapseLoop b t, ws c = true → c = ' ' := by
    intro t
    induction t with
    | nil => intro b; simp [collapseLoop]
    | cons c t ih =>
      intro b
      by_cases hc : ws c = true
      · simp only [collapseLoop, ws_eq, hc, if_true]
        cases b with
        | true => simpa using ih true
        | false =>
          simp only [Bool.false_eq_true, if_false]
          constructor
          · intro a x y r e
            cases a with
            | nil =>
              simp only [List.nil_append, List.cons.injEq] at e
              rintro ⟨-, hy⟩
              exact absurd (collapseLoop_head true t ⟨y, by rw [e.2]; rfl, hy⟩) (by decide)
            | cons d a =>
              simp only [List.cons_append, List.cons.injEq] at e
              exact (ih true).1 a x y r e.2
          · intro d hd hw
            simp only [List.mem_cons] at hd
            rcases hd with rfl | hd
            · rfl
            · exact (ih true).2 d hd hw
      · simp only [collapseLoop, ws_eq, hc, Bool.false_eq_true, if_false]
        constructor
        · intro a x y r e
          cases a with
          | nil =>
            simp only [List.nil_append, List.cons.injEq] at e
            rintro ⟨hx, -⟩
            rw [← e.1] at hx
            exact hc hx
          | cons d a =>
            simp only [List.cons_append, List.cons.injEq] at e
            exact (ih false).1 a x y r e.2
        · intro d hd hw
          simp only [List.mem_cons] at hd
          rcases hd with rfl | hd
          · exact absurd hw hc
          · exact (ih false).2 d hd hw
  exact ⟨fun a x y r e => (key t false).1 a x y r e, (key t false).2⟩

/-- C52: leading and trailing white space is neither removed nor added. -/
theorem C52_not_trimmed (t : Str) :
    ((∃ c r, collapse t = c :: r ∧ ws c = true) ↔ (∃ c r, t = c :: r ∧ ws c = true)) ∧
    (collapse t = [] ↔ t = []) := by
  rw [collapse_eq]
  cases t with
  | nil => simp [collapseLoop]
  | cons c t =>
    by_cases hc : ws c = true
    · simp [collapseLoop, ws_eq, hc, show ws ' ' = true by decide]
    · simp [collapseLoop, ws_eq, hc]

/-- C52: collapsing twice equals collapsing once. -/
theorem C52_idempotent (t : Str) : collapse (collapse t) = collapse t := by
  obtain ⟨h1, h2⟩ := C52_single_spaces t
  generalize collapse t = s at *
  rw [collapse]
  have a1 : s.any isFormattingSpace = false := by
    rw [List.any_eq_false]
    intro c hc hf
    have hw : ws c = true := by
      simp only [isFormattingSpace, Bool.or_eq_true, decide_eq_true_eq] at hf
      rcases hf with ((h | h) | h) | h <;> subst h <;> decide
    have := h2 c hc hw
    subst this
    exact absurd hf (by decide)
  have a2 : isIn c%"  " s = false := by
    rw [isIn_false_iff]
    intro a b e
    exact h1 a ' ' ' ' b (by rw [e]; simp) ⟨by decide, by decide⟩
  simp [a1, a2]

example : collapse c%" a \t\n b  c\r" = c%" a b c " ∧ words c%" a \t\n b  c\r" = [c%"a", c%"b", c%"c"] := by decide

/-- F14: the pretty printer's collapsing also removes white space that is significant in HTML, such as the no-break space
(it uses `str.split()`, whose white space is Unicode's): the claim "only HTML white space is touched" is false of it. -/
theorem C52_pretty_collapse_fails : ¬ ∀ (U : Uni) (t : Str), words (collapsePretty U t) = words t := by
  intro h
  let U : Uni := { Uni.sample with
    isSpace := fun c => Uni.sample.isSpace c || c = '\u00a0'
    isSpace_ascii := fun c hc => by
      have : c ≠ '\u00a0' := by rintro rfl; exact absurd hc (by decide)
      simp [this, Uni.sample]
    lower_space := fun s hs c hc => by
      have h1 : Uni.sample.isSpace c = false := Uni.sample.lower_space s (fun d hd => by have := hs d hd; simp_all) c hc
      have h2 : c ≠ '\u00a0' := by
        rintro rfl
        obtain ⟨d, hd, he⟩ := List.mem_map.1 (show '\u00a0' ∈ s.map lowerC from hc)
        by_cases hu : isUpperC d = true
        · have := lowerC_toNat d hu
          rw [he] at this
          have e : '\u00a0'.toNat = 160 := rfl
          omega
        · rw [lowerC, if_neg hu] at he
          have := hs d hd
          rw [he] at this
          simp at this
      simp [h1, h2] }
  have := h U c%"a\u00a0b"
  have e1 : collapsePretty U c%"a\u00a0b" = c%"a b" := by decide
  rw [e1] at this
  exact absurd this (by decide)

/-! ### C55 -/

theorem isInvisible_iff (c : Char) : isInvisible c = true ↔ Invisible c := by
  unfold isInvisible invisibleRanges Invisible
  simp only [List.any_cons, List.any_nil, Bool.or_false, Bool.or_eq_true, Bool.and_eq_true, decide_eq_true_eq]
  omega

theorem not_invisible_ascii {c : Char} (h : isAscii c = true) : ¬ Invisible c := by
  rw [isAscii_iff] at h
  unfold Invisible
  dsimp only
  omega

open Classical in
/-- C55: exactly the listed code points are removed; all others are kept, in order. -/
theorem C55_exact (v : Str) : stripInvisible v = v.filter (fun c => ¬ Invisible c) := by
  have hf : v.filter (fun c => !isInvisible c) = v.filter (fun c => decide (¬ Invisible c)) := by
    apply List.filter_congr
    intro c _
    cases h : isInvisible c with
    | true => simp [(isInvisible_iff c).1 h]
    | false =>
      have : ¬ Invisible c := fun hi => by rw [(isInvisible_iff c).2 hi] at h; simp at h
      simp [this]
  unfold stripInvisible
  split
  · rename_i h
    symm
    rw [List.filter_eq_self]
    intro c hc
    rw [List.all_eq_true] at h
    simpa using not_invisible_ascii (h c hc)
  · split
    · rename_i h
      rw [← hf]
      symm
      rw [List.filter_eq_self]
      intro c hc
      simp only [Bool.not_eq_true', List.any_eq_false] at h
      simpa using h c hc
    · exact hf

/-- C55: nothing invisible is left. -/
theorem C55_none_left (v : Str) (c : Char) (h : c ∈ stripInvisible v) : ¬ Invisible c := by
  classical
  rw [C55_exact] at h
  simpa using (List.mem_filter.1 h).2

/-- C55: stripping twice equals stripping once. -/
theorem C55_idempotent (v : Str) : stripInvisible (stripInvisible v) = stripInvisible v := by
  classical
  rw [C55_exact (stripInvisible v), List.filter_eq_self]
  intro c hc
  simpa using C55_none_left v c hc

example : stripInvisible ['a', '\u200b', 'b', '\ufeff', 'é', '\ue000'] = ['a', 'b', 'é'] := by decide

/-! ### C11 -/

theorem hexVal_hexDigit (n : Nat) (h : n < 16) : hexVal? (hexDigit n) = some n := by
  have : ∀ m : Fin 16, hexVal? (hexDigit m.val) = some m.val := by decide
  exact this ⟨n, h⟩

theorem hexDigit_hex (n : Nat) (h : n < 16) : isDigitC (hexDigit n) = true ∨ ('A' ≤ hexDigit n ∧ hexDigit n ≤ 'F') := by
  have : ∀ m : Fin 16, isDigitC (hexDigit m.val) = true ∨ ('A' ≤ hexDigit m.val ∧ hexDigit m.val ≤ 'F') := by decide
  exact this ⟨n, h⟩

theorem percentDecode_plain (c : Char) (r : Str) (h1 : c ≠ '%') (h2 : c.toNat < 128) :
    percentDecode (c :: r) = (percentDecode r).map (c.toNat :: ·) := by
  rw [percentDecode.eq_def]
  split
  · rename_i h; cases h
  · rename_i h; cases h; exact absurd rfl h1
  · rename_i h; cases h
    rw [if_neg (by rintro (h | h); exact h1 h; omega)]

theorem percentDecode_byte (safe : Char → Bool) (hs : safe '%' = false) (b : Nat) (hb : b < 256) (r : Str) :
    percentDecode (quoteByte safe b ++ r) = (percentDecode r).map (b :: ·) := by
  unfold quoteByte
  by_cases h : (decide (b < 128) && (alwaysSafe (Char.ofNat b) || safe (Char.ofNat b))) = true
  · rw [if_pos h]
    simp only [Bool.and_eq_true, Bool.or_eq_true, decide_eq_true_eq] at h
    have hn : (Char.ofNat b).toNat = b := toNat_ofNat (by omega)
    rw [List.singleton_append, percentDecode_plain _ _ _ (by omega), hn]
    intro e
    rw [e] at h
    rcases h.2 with h | h
    · exact absurd h (by decide)
    · rw [hs] at h; simp at h
  · rw [if_neg h]
    simp only [List.cons_append, List.nil_append, percentDecode]
    rw [hexVal_hexDigit _ (by omega), hexVal_hexDigit _ (by omega)]
    cases percentDecode r with
    | none => rfl
    | some bs => simp only [Option.map_some, Option.some.injEq, List.cons.injEq, and_true]; omega

theorem char_lt (c : Char) : c.toNat < 0xD800 ∨ (0xDFFF < c.toNat ∧ c.toNat < 0x110000) := by
  have := c.valid
  simp only [UInt32.isValidChar, Nat.isValidChar] at this
  exact this

theorem utf8_bytes (c : Char) : ∀ b ∈ utf8 c, b < 256 := by
  have := char_lt c
  unfold utf8
  dsimp only
  intro b hb
  split at hb
  · simp at hb; omega
  · split at hb
    · simp at hb; omega
    · split at hb
      · simp at hb; omega
      · simp at hb; omega

theorem percentDecode_bytes (safe : Char → Bool) (hs : safe '%' = false) (bs : List Nat) (hb : ∀ b ∈ bs, b < 256) (r : Str) :
    percentDecode (bs.flatMap (quoteByte safe) ++ r) = (percentDecode r).map (bs ++ ·) := by
  induction bs with
  | nil => simp
  | cons b bs ih =>
    rw [List.flatMap_cons, List.append_assoc, percentDecode_byte safe hs b (hb b (by simp)), ih (fun x hx => hb x (by simp [hx]))]
    simp [Option.map_map, Function.comp_def]

theorem utf8Decode_char (c : Char) (r : List Nat) : utf8Decode (utf8 c ++ r) = (utf8Decode r).map (c :: ·) := by
  have hv := char_lt c
  have hc : ∀ n, n = c.toNat → Char.ofNat n = c := by rintro n rfl; exact Char.ofNat_toNat c
  unfold utf8
  dsimp only
  by_cases h1 : c.toNat < 0x80
  · rw [if_pos h1, List.singleton_append, utf8Decode.eq_def]
    simp only [if_pos h1, hc _ rfl]
  · rw [if_neg h1]
    by_cases h2 : c.toNat < 0x800
    · rw [if_pos h2]
      rw [List.cons_append, List.cons_append, List.nil_append, utf8Decode.eq_def]
      simp only
      rw [if_neg (by omega), if_pos (by omega), if_pos (by omega), hc]
      omega
    · rw [if_neg h2]
      by_cases h3 : c.toNat < 0x10000
      · rw [if_pos h3]
        rw [List.cons_append, List.cons_append, List.cons_append, List.nil_append, utf8Decode.eq_def]
        simp only
        rw [if_neg (by omega), if_neg (by omega), if_pos (by omega), if_pos (by omega), hc]
        omega
      · rw [if_neg h3]
        rw [List.cons_append, List.cons_append, List.cons_append, List.cons_append, List.nil_append, utf8Decode.eq_def]
        simp only
        rw [if_neg (by omega), if_neg (by omega), if_neg (by omega), if_pos (by omega), if_pos (by omega), hc]
        omega

/-- Percent-encoding followed by percent-decoding and UTF-8 decoding is the identity. -/
theorem urlQuote_roundtrip (safe : Char → Bool) (hs : safe '%' = false) (v : Str) :
    (percentDecode (urlQuote safe v)).bind utf8Decode = some v := by
  have h1 : percentDecode (urlQuote safe v) = some (v.flatMap utf8) := by
    unfold urlQuote
    induction v with
    | nil => rfl
    | cons c v ih =>
      rw [List.flatMap_cons, percentDecode_bytes safe hs _ (utf8_bytes c), ih]
      simp
  rw [h1, Option.bind_some]
  induction v with
  | nil => rfl
  | cons c v ih =>
    rw [List.flatMap_cons, utf8Decode_char, ih (by
      unfold urlQuote at h1 ⊢
      rw [List.flatMap_cons, percentDecode_bytes safe hs _ (utf8_bytes c)] at h1
      cases hx : percentDecode (v.flatMap fun c => (utf8 c).flatMap (quoteByte safe)) with
      | none => rw [hx] at h1; simp at h1
      | some bs => rw [hx] at h1; simp at h1; rw [h1])]
    rfl

theorem urlQuote_chars (safe : Char → Bool) (v : Str) (x : Char) (h : x ∈ urlQuote safe v) :
    alwaysSafe x = true ∨ safe x = true ∨ x = '%' ∨ isDigitC x = true ∨ ('A' ≤ x ∧ x ≤ 'F') := by
  unfold urlQuote at h
  rw [List.mem_flatMap] at h
  obtain ⟨c, -, h⟩ := h
  rw [List.mem_flatMap] at h
  obtain ⟨b, hb, h⟩ := h
  have hlt := utf8_bytes c b hb
  unfold quoteByte at h
  split at h
  · rename_i hc
    simp only [List.mem_singleton] at h
    subst h
    simp only [Bool.and_eq_true, Bool.or_eq_true] at hc
    rcases hc.2 with h | h
    · exact .inl h
    · exact .inr (.inl h)
  · simp only [List.mem_cons, List.not_mem_nil, or_false] at h
    rcases h with h | h | h
    · exact .inr (.inr (.inl h))
    · subst h
      rcases hexDigit_hex (b / 16) (by omega) with h | h
      · exact .inr (.inr (.inr (.inl h)))
      · exact .inr (.inr (.inr (.inr h)))
    · subst h
      rcases hexDigit_hex (b % 16) (by omega) with h | h
      · exact .inr (.inr (.inr (.inl h)))
      · exact .inr (.inr (.inr (.inr h)))

/-- C11: percent-decoding the escaped URL as UTF-8 gives the original value back. -/
theorem C11_roundtrip (v : Str) : (percentDecode (escapeUrl v)).bind utf8Decode = some v := by
  unfold escapeUrl
  cases v with
  | nil => rfl
  | cons c v => exact urlQuote_roundtrip urlSafe (by decide) (c :: v)

/-- C11: the escaped URL consists only of letters, digits, the separators `/:@?&=#+-._~` and `%`. -/
theorem C11_alphabet (v : Str) (x : Char) (h : x ∈ escapeUrl v) :
    isAsciiAlpha x = true ∨ isDigitC x = true ∨ x ∈ c%"/:@?&=#+-._~%" := by
  unfold escapeUrl at h
  split at h
  · simp at h
  · rcases urlQuote_chars urlSafe v x h with h | h | h | h | h
    · simp only [alwaysSafe, Bool.or_eq_true, decide_eq_true_eq] at h
      rcases h with ((((h | h) | h) | h) | h) | h
      · exact .inl h
      · exact .inr (.inl h)
      all_goals subst h; exact .inr (.inr (by decide))
    · unfold urlSafe at h
      rw [List.contains_eq_mem, decide_eq_true_eq] at h
      right; right
      simp only [List.mem_cons, List.not_mem_nil, or_false] at h ⊢
      rcases h with h | h | h | h | h | h | h | h | h | h | h | h <;> simp [h]
    · subst h; exact .inr (.inr (by decide))
    · exact .inr (.inl h)
    · left
      have h1 : 65 ≤ x.toNat := h.1
      have h2 : x.toNat ≤ 70 := h.2
      simp only [isAsciiAlpha, Bool.or_eq_true, isUpperC_iff]
      right; omega

/-- C11: the HTML-attribute form has every `&` written as `&amp;` and nothing else changed. -/
theorem C11_attr_form (v : Str) : escapeUrlAttr v = (escapeUrl v).flatMap (fun c => if c = '&' then c%"&amp;" else [c]) ∧
    ∀ a b, escapeUrlAttr v = a ++ '&' :: b → ∃ r, b = c%"amp;" ++ r := by
  refine ⟨rfl, ?_⟩
  unfold escapeUrlAttr
  generalize escapeUrl v = s
  induction s with
  | nil => intro a b h; simp at h
  | cons c s ih =>
    intro a b h
    rw [replaceC_cons] at h
    by_cases hc : c = '&'
    · rw [if_pos hc] at h
      match a, h with
      | [], h => simp at h; exact ⟨_, h.symm⟩
      | [_], h => simp at h
      | [_, _], h => simp at h
      | [_, _, _], h => simp at h
      | [_, _, _, _], h => simp at h
      | _ :: _ :: _ :: _ :: _ :: a, h =>
        simp only [List.cons_append, List.cons.injEq, List.nil_append] at h
        exact ih a b h.2.2.2.2.2
    · rw [if_neg hc] at h
      match a, h with
      | [], h => simp at h; exact absurd h.1 hc
      | _ :: a, h =>
        simp only [List.cons_append, List.cons.injEq, List.nil_append] at h
        exact ih a b h.2

example : escapeUrl c%"/a b?x=\"é\"&y#%" = c%"/a%20b?x=%22%C3%A9%22&y#%25" := by decide

end JH
