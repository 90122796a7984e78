import Verif.Props.Markup

/-! Properties C08, C09 and C56: raw text elements. -/
namespace JH
open Spec

theorem low_eq_lowerC (c : Char) : low c = lowerC c := by
  unfold low lowerC
  by_cases h : isUpperC c = true
  · rw [if_pos h, if_pos]; simpa [isUpperC, charLe] using h
  · rw [if_neg h, if_neg]
    intro hc; apply h; simpa [isUpperC, charLe] using hc

/-- What a position-preserving ASCII fold does to one character. -/
def FoldC (c d : Char) : Prop := (isAscii c = true → d = lowerC c) ∧ (isAscii c = false → isAscii d = false)

theorem foldC_lowerC (c : Char) : FoldC c (lowerC c) := ⟨fun _ => rfl, fun h => by rw [isAscii_lowerC, h]⟩

theorem forall2_lowerA (s : Str) : List.Forall₂ FoldC s (lowerA s) := by
  induction s with
  | nil => exact .nil
  | cons c s ih => exact .cons (foldC_lowerC c) ih

/-- C56: the folded copy used for marker searches is position by position an ASCII fold of the original: same length, ASCII
characters lower-cased in place, and no non-ASCII character turned into an ASCII one (or the converse). -/
theorem C56_ascii_fold (U : Uni) (s : Str) : List.Forall₂ FoldC s (asciiLower U s) := by
  unfold asciiLower
  split
  · rename_i h; rw [U.lower_ascii s h]; exact forall2_lowerA s
  · split
    · exact forall2_lowerA s
    · rename_i h
      simp only [Bool.or_eq_true, not_or, Bool.not_eq_true] at h
      have h1 : '\u0130' ∉ s := by simpa using h.1
      have h2 : '\u212a' ∉ s := by simpa using h.2
      exact U.lower_fold s h1 h2

theorem Forall2.drop' {R : Char → Char → Prop} {s l : Str} (h : List.Forall₂ R s l) (n : Nat) :
    List.Forall₂ R (s.drop n) (l.drop n) := by
  induction h generalizing n with
  | nil => simp
  | cons a b ih => cases n with
    | zero => exact .cons a b
    | succ n => simpa using ih n

theorem Forall2.len {R : Char → Char → Prop} {s l : Str} (h : List.Forall₂ R s l) : s.length = l.length := by
  induction h with
  | nil => rfl
  | cons _ _ ih => simp [ih]

/-- C56: offsets in the folded copy are offsets in the original: every occurrence of an ASCII marker in lower case found in
the folded copy is an occurrence of that marker, in some letter case, at the same offset of the original, and conversely. -/
theorem C56_offsets (U : Uni) (s marker : Str) (hm : marker.all isAscii = true) (k : Nat) :
    (asciiLower U s).length = s.length ∧
    (startsWith marker ((asciiLower U s).drop k) = true ↔ ((s.drop k).take marker.length).map low = marker) := by
  refine ⟨(Forall2.len (C56_ascii_fold U s)).symm, ?_⟩
  have h := Forall2.drop' (C56_ascii_fold U s) k
  generalize s.drop k = t at h
  generalize (asciiLower U s).drop k = l at h
  simp only [List.all_eq_true] at hm
  induction marker generalizing t l with
  | nil => simp [startsWith]
  | cons m marker ih =>
    cases h with
    | nil => simp [startsWith]
    | @cons c d t l hcd hr =>
      have := ih t l hr (fun x hx => hm x (by simp [hx]))
      simp only [startsWith, List.isPrefixOf, Bool.and_eq_true, beq_iff_eq, List.length_cons, List.take_succ_cons,
        List.map_cons, List.cons.injEq, Bool.coe_iff_coe] at this ⊢
      have hmA := hm m (by simp)
      constructor
      · rintro ⟨rfl, h2⟩
        refine ⟨?_, this.1 h2⟩
        rw [low_eq_lowerC]
        cases hc : isAscii c with
        | true => exact (hcd.1 hc).symm
        | false => have := hcd.2 hc; simp [hmA] at this
      · rintro ⟨h1, h2⟩
        refine ⟨?_, this.2 h2⟩
        rw [low_eq_lowerC] at h1
        have hc : isAscii c = true := by rw [← isAscii_lowerC, h1]; exact hmA
        rw [hcd.1 hc, h1]

example : asciiLower Uni.sample "İ</SCRIPT>".toList = "İ</script>".toList := by decide

/-! ### C08, C09 -/

/-- `</name` (any case) starts here, whatever follows. -/
def NeedleHere (tag t : Str) : Prop :=
  ∃ name post, t = ('<' :: '/' :: name) ++ post ∧ name.map low = tag

theorem hasEndTag_iff (tag s : Str) : HasEndTag tag s ↔ ∃ j, EndHere tag (s.drop j) := by
  constructor
  · rintro ⟨pre, name, post, h1, h2, h3⟩
    refine ⟨pre.length, name, post, ?_, h2, h3⟩
    rw [h1, List.append_assoc, List.drop_left]
  · rintro ⟨j, name, post, h1, h2, h3⟩
    refine ⟨s.take j, name, post, ?_, h2, h3⟩
    rw [List.append_assoc, ← h1, List.take_append_drop]

theorem boundary_iff (c : Char) : isTagBoundary c = true ↔ c ∈ ['\t', '\n', '\x0c', '\r', ' ', '/', '>'] := by
  simp only [isTagBoundary, isHtmlSpace, Bool.or_eq_true, decide_eq_true_eq, List.mem_cons, List.not_mem_nil, or_false]
  constructor
  · rintro ((((((h | h) | h) | h) | h) | h) | h) <;> simp [h]
  · rintro (h | h | h | h | h | h | h) <;> simp [h]

/-- The needle found in the folded text is the needle of the original text. -/
theorem startsWith_needle {tag t l : Str} (hf : List.Forall₂ FoldC t l) (ht : tag.all isAscii = true) :
    startsWith (c%"</" ++ tag) l = true ↔ NeedleHere tag t := by
  have key : ∀ (tag t l : Str), List.Forall₂ FoldC t l → tag.all isAscii = true →
      (startsWith tag l = true ↔ ∃ name post, t = name ++ post ∧ name.map low = tag) := by
    intro tag
    induction tag with
    | nil => intro t l _ _; simp only [startsWith, List.isPrefixOf, true_iff]; exact ⟨[], t, rfl, rfl⟩
    | cons m tag ih =>
      intro t l hf ht
      simp only [List.all_cons, Bool.and_eq_true] at ht
      cases hf with
      | nil => simp [startsWith]
      | @cons c d t l hcd hr =>
        simp only [startsWith, List.isPrefixOf, Bool.and_eq_true, beq_iff_eq] at ih ⊢
        rw [ih t l hr ht.2]
        constructor
        · rintro ⟨rfl, name, post, rfl, hn⟩
          refine ⟨c :: name, post, rfl, ?_⟩
          have hc : isAscii c = true := by
            cases hc : isAscii c with
            | true => rfl
            | false => have := hcd.2 hc; simp [ht.1] at this
          simp [hn, low_eq_lowerC, hcd.1 hc]
        · rintro ⟨name, post, h1, h2⟩
          cases name with
          | nil => simp at h2
          | cons x name =>
            simp only [List.cons_append, List.cons.injEq, List.map_cons] at h1 h2
            obtain ⟨rfl, rfl⟩ := h1
            refine ⟨?_, name, post, rfl, h2.2⟩
            have h3 := h2.1
            rw [low_eq_lowerC] at h3
            have hc : isAscii c = true := by rw [← isAscii_lowerC, h3]; exact ht.1
            rw [hcd.1 hc, h3]
  rw [key _ _ _ hf (by simp [ht, isAscii])]
  constructor
  · rintro ⟨name, post, rfl, h⟩
    match name, h with
    | [], h => simp at h
    | [a], h => simp at h
    | a :: b :: name, h =>
      simp only [List.cons_append, List.nil_append, List.map_cons, List.cons.injEq, low_eq_lowerC] at h
      have ha := lowerC_eq_nonletter (by decide) h.1
      have hb := lowerC_eq_nonletter (by decide) h.2.1
      subst ha; subst hb
      exact ⟨name, post, rfl, by simpa [low_eq_lowerC] using h.2.2⟩
  · rintro ⟨name, post, rfl, h⟩
    refine ⟨'<' :: '/' :: name, post, rfl, ?_⟩
    have e1 : low '<' = '<' := by decide
    have e2 : low '/' = '/' := by decide
    simp [h, e1, e2]

theorem endHere_bound {tag t : Str} (hn : NeedleHere tag t) :
    atBoundary (t.drop (c%"</" ++ tag).length) = true ↔ EndHere tag t := by
  obtain ⟨name, post, rfl, h⟩ := hn
  have hl : name.length = tag.length := by rw [← h]; simp
  have hd : (('<' :: '/' :: name) ++ post).drop (c%"</" ++ tag).length = post := by
    have : (c%"</" ++ tag).length = ('<' :: '/' :: name).length := by simp [hl]
    rw [this, List.drop_left]
  rw [hd]
  constructor
  · intro hb
    refine ⟨name, post, rfl, h, ?_⟩
    cases post with
    | nil => left; rfl
    | cons d r => right; exact ⟨d, r, rfl, (boundary_iff d).1 (by simpa [atBoundary] using hb)⟩
  · rintro ⟨name', post', h1, h2, h3⟩
    have hl' : name'.length = tag.length := by rw [← h2]; simp
    have : post = post' := by
      have h4 : name ++ post = name' ++ post' := by simpa using h1
      exact (List.append_inj h4 (by omega)).2
    subst this
    rcases h3 with rfl | ⟨d, r, rfl, h3⟩
    · rfl
    · simpa [atBoundary] using (boundary_iff d).2 h3

theorem needleHere_tail {tag t u : Str} (h : NeedleHere tag t) : NeedleHere tag (t ++ u) := by
  obtain ⟨name, post, rfl, h⟩ := h
  exact ⟨name, post ++ u, by simp, h⟩

/-- The joined output: pieces without needles, each followed by `&lt;`. -/
inductive Pieces (tag : Str) : Str → Prop
  | nil : Pieces tag []
  | snoc (o p : Str) : Pieces tag o → (∀ j, ¬ NeedleHere tag (p.drop j)) → Pieces tag (o ++ p ++ c%"&lt;")

theorem endHere_split {tag p q : Str} (ht : '&' ∉ tag) (h : EndHere tag (p ++ '&' :: q)) (hp : ¬ NeedleHere tag p) : False := by
  obtain ⟨name, post, h1, h2, h3⟩ := h
  have hamp : '&' ∉ '<' :: '/' :: name := by
    simp only [List.mem_cons, not_or]
    refine ⟨by decide, by decide, fun hm => ht ?_⟩
    rw [← h2]
    have : low '&' ∈ name.map low := List.mem_map_of_mem hm
    have e : low '&' = '&' := by decide
    rwa [e] at this
  rcases Nat.lt_or_ge p.length ('<' :: '/' :: name).length with hlt | hge
  · -- the needle extends over the `&`
    have hx := congrArg (fun z => z[p.length]?) h1
    simp only [List.getElem?_append_right (Nat.le_refl _), Nat.sub_self, List.getElem?_cons_zero,
      List.getElem?_append_left hlt] at hx
    exact hamp (List.mem_of_getElem? hx.symm)
  · apply hp
    have := (List.append_inj' (s₁ := p.take ('<' :: '/' :: name).length)
      (t₁ := p.drop ('<' :: '/' :: name).length ++ '&' :: q) (s₂ := '<' :: '/' :: name) (t₂ := post) ?_ ?_).1
    · refine ⟨name, p.drop ('<' :: '/' :: name).length, ?_, h2⟩
      conv => lhs; rw [← List.take_append_drop ('<' :: '/' :: name).length p, this]
    · rw [← List.append_assoc, List.take_append_drop, h1]
    · have := congrArg List.length h1
      simp only [List.length_append, List.length_cons, List.length_drop] at this hge ⊢
      omega

theorem pieces_noEnd {tag o rest : Str} (ht : '&' ∉ tag) (ho : Pieces tag o) (hr : ∀ j, ¬ EndHere tag (rest.drop j)) :
    ∀ j, ¬ EndHere tag ((o ++ rest).drop j) := by
  induction ho generalizing rest with
  | nil => simpa using hr
  | snoc o p _ hp ih =>
    have e : o ++ p ++ c%"&lt;" ++ rest = o ++ (p ++ '&' :: 'l' :: 't' :: ';' :: rest) := by simp
    rw [e]
    apply ih
    intro j hj
    rcases Nat.lt_or_ge j p.length with hlt | hge
    · rw [List.drop_append_of_le_length (Nat.le_of_lt hlt)] at hj
      exact endHere_split ht hj (hp j)
    · rw [List.drop_append] at hj
      have hd : p.drop j = [] := List.drop_eq_nil_of_le hge
      rw [hd, List.nil_append] at hj
      generalize j - p.length = i at hj
      match i with
      | 0 => obtain ⟨_, _, h, _⟩ := hj; simp at h
      | 1 => obtain ⟨_, _, h, _⟩ := hj; simp at h
      | 2 => obtain ⟨_, _, h, _⟩ := hj; simp at h
      | 3 => obtain ⟨_, _, h, _⟩ := hj; simp at h
      | n + 4 => exact hr n (by simpa using hj)

theorem find?_none_len {n s : Str} (h : find? n s = none) (hn : n ≠ []) (j : Nat) : startsWith n (s.drop j) = false := by
  rcases Nat.lt_or_ge s.length j with hlt | hge
  · rw [List.drop_eq_nil_of_le (Nat.le_of_lt hlt)]
    cases n with
    | nil => exact absurd rfl hn
    | cons _ _ => rfl
  · exact find?_none h j hge

/-- The invariant of the loop. -/
theorem neutLoop_inv {tag : Str} (htA : tag.all isAscii = true) (n : Nat) :
    ∀ (t l out : Str) (ch : Bool), t.length < n → List.Forall₂ FoldC t l → Pieces tag out →
    ∀ out' rest ch', neutLoop (c%"</" ++ tag) n t l out ch = (out', rest, ch') →
      Pieces tag out' ∧ (∀ j, ¬ NeedleHere tag (rest.drop j)) ∧
      (ch' = false → ch = false ∧ ∀ j, ¬ EndHere tag (t.drop j)) ∧
      ((∀ j, ¬ EndHere tag (t.drop j)) → ch' = ch) ∧
      ((∀ j, NeedleHere tag (t.drop j) → EndHere tag (t.drop j)) → out' ++ rest = out ++ neutralized tag t) := by
  have neut_app : ∀ a b : Str, (∀ j, j < a.length → ¬ EndHere tag ((a ++ b).drop j)) →
      neutralized tag (a ++ b) = a ++ neutralized tag b := by
    intro a b h
    induction a with
    | nil => rfl
    | cons c a ih =>
      have h0 := h 0 (by simp)
      simp only [List.drop_zero, List.cons_append] at h0
      rw [List.cons_append, neutralized, if_neg h0, ih (fun j hj => by simpa using h (j + 1) (by simpa using hj))]
      rfl
  induction n with
  | zero => intro t l out ch h; omega
  | succ n ih =>
    intro t l out ch hlen hf ho out' rest ch' heq
    simp only [neutLoop] at heq
    cases hk : find? (c%"</" ++ tag) l with
    | none =>
      simp only [hk, Prod.mk.injEq] at heq
      obtain ⟨rfl, rfl, rfl⟩ := heq
      have hno : ∀ j, ¬ NeedleHere tag (t.drop j) := by
        intro j hj
        have := (startsWith_needle (Forall2.drop' hf j) htA).2 hj
        rw [find?_none_len hk (by simp) j] at this
        simp at this
      have hnoE : ∀ j, ¬ EndHere tag (t.drop j) := by
        rintro j ⟨name, post, h1, h2, _⟩; exact hno j ⟨name, post, h1, h2⟩
      refine ⟨ho, hno, fun h => ⟨h, hnoE⟩, fun _ => rfl, fun _ => ?_⟩
      have := neut_app t [] (fun j _ => by simpa using hnoE j)
      simp only [List.append_nil, neutralized] at this
      rw [this]
    | some k =>
      simp only [hk] at heq
      obtain ⟨hk1, hk2, hk3⟩ := find?_some hk
      have hn : NeedleHere tag (t.drop k) := (startsWith_needle (Forall2.drop' hf k) htA).1 hk2
      have hbefore : ∀ j, j < k → ¬ NeedleHere tag (t.drop j) := by
        intro j hj hj'
        have := (startsWith_needle (Forall2.drop' hf j) htA).2 hj'
        rw [hk3 j hj] at this; simp at this
      have hklen : k < t.length := by
        obtain ⟨name, post, h, _⟩ := hn
        have := congrArg List.length h
        simp at this; omega
      have hlen' : (t.drop (k + 1)).length < n := by simp; omega
      have hb := endHere_bound hn
      rw [List.drop_drop] at hb
      have hdropj : ∀ j, (t.drop (k + 1)).drop j = t.drop (k + 1 + j) := by intro j; rw [List.drop_drop]
      have hpre : ∀ j, j ≤ k → (j < k → ¬ EndHere tag (t.drop j)) := by
        rintro j _ hj ⟨name, post, h1, h2, _⟩; exact hbefore j hj ⟨name, post, h1, h2⟩
      have hsplit : t = t.take k ++ t.drop k := (List.take_append_drop k t).symm
      by_cases hbd : atBoundary (t.drop (k + (c%"</" ++ tag).length)) = true
      · rw [if_pos hbd] at heq
        have hE : EndHere tag (t.drop k) := hb.1 hbd
        have hp : ∀ j, ¬ NeedleHere tag ((t.take k).drop j) := by
          intro j hj
          rcases Nat.lt_or_ge j k with hlt | hge
          · have := needleHere_tail (u := t.drop k) hj
            have e : (t.take k).drop j ++ t.drop k = t.drop j := by
              conv => rhs; rw [hsplit, List.drop_append_of_le_length (by simp; omega)]
            rw [e] at this
            exact hbefore j hlt this
          · rw [List.drop_eq_nil_of_le (by simp; omega)] at hj
            obtain ⟨_, _, h, _⟩ := hj; simp at h
        obtain ⟨r1, r2, r3, r4, r5⟩ := ih _ _ _ true hlen' (Forall2.drop' hf (k + 1)) (.snoc out _ ho hp) _ _ _ heq
        refine ⟨r1, r2, ?_, ?_, ?_⟩
        · intro h; have := (r3 h).1; simp at this
        · intro h; exact absurd hE (h k)
        · intro h
          have := r5 (fun j hj => by rw [hdropj] at hj ⊢; exact h _ hj)
          rw [this]
          have hdk : t.drop k = t[k] :: t.drop (k + 1) := List.drop_eq_getElem_cons hklen
          have e2 : neutralized tag t = t.take k ++ neutralized tag (t.drop k) := by
            conv => lhs; rw [hsplit]
            apply neut_app
            intro j hj
            rw [List.take_append_drop]
            have hj' : j < k := by simp at hj; omega
            exact hpre j (Nat.le_of_lt hj') hj'
          rw [e2, hdk, neutralized, if_pos]
          · simp
          · rw [← hdk]; exact hE
      · rw [if_neg hbd] at heq
        have hnE : ¬ EndHere tag (t.drop k) := fun h => hbd (hb.2 h)
        obtain ⟨r1, r2, r3, r4, r5⟩ := ih _ _ _ ch hlen' (Forall2.drop' hf (k + 1)) ho _ _ _ heq
        refine ⟨r1, r2, ?_, ?_, ?_⟩
        · intro h
          obtain ⟨h1, h2⟩ := r3 h
          refine ⟨h1, ?_⟩
          intro j
          rcases Nat.lt_trichotomy j k with hlt | rfl | hgt
          · exact hpre j (Nat.le_of_lt hlt) hlt
          · exact hnE
          · have := h2 (j - (k + 1))
            rw [hdropj] at this
            rwa [show k + 1 + (j - (k + 1)) = j by omega] at this
        · intro h
          exact r4 (fun j => by rw [hdropj]; exact h _)
        · intro h
          exact absurd (h k hn) hnE

/-- C08: the text written for a raw-text element never contains an end tag for it, whatever the text and whatever its
letter case or non-ASCII characters. -/
theorem C08_no_end_tag (U : Uni) (tag text : Str) (htA : tag.all isAscii = true) (htamp : '&' ∉ tag) :
    ¬ HasEndTag tag (neutralize (asciiLower U) tag text).1 := by
  rw [hasEndTag_iff]
  rintro ⟨j, hj⟩
  revert hj
  unfold neutralize
  rcases hres : neutLoop (c%"</" ++ tag) (text.length + 1) text (asciiLower U text) [] false with ⟨out, rest, ch⟩
  obtain ⟨r1, r2, r3, -, -⟩ := neutLoop_inv htA _ text (asciiLower U text) [] false (by omega) (C56_ascii_fold U text) .nil _ _ _ hres
  simp only [hres]
  cases ch with
  | true =>
    exact pieces_noEnd htamp r1 (fun j => by rintro ⟨name, post, h1, h2, _⟩; exact r2 j ⟨name, post, h1, h2⟩) j
  | false => exact (r3 rfl).2 j

/-- C09: text without an end tag for the element is written unchanged. -/
theorem C09_unchanged (U : Uni) (tag text : Str) (htA : tag.all isAscii = true) (h : ¬ HasEndTag tag text) :
    neutralize (asciiLower U) tag text = (text, false) := by
  have hno : ∀ j, ¬ EndHere tag (text.drop j) := by rw [hasEndTag_iff] at h; simpa using h
  unfold neutralize
  rcases hres : neutLoop (c%"</" ++ tag) (text.length + 1) text (asciiLower U text) [] false with ⟨out, rest, ch⟩
  obtain ⟨-, -, -, r4, -⟩ := neutLoop_inv htA _ text (asciiLower U text) [] false (by omega) (C56_ascii_fold U text) .nil _ _ _ hres
  simp only [hres, r4 hno, Bool.false_eq_true, if_false]

/-- C08: neutralizing twice is neutralizing once. -/
theorem C08_idempotent (U : Uni) (tag text : Str) (htA : tag.all isAscii = true) (htamp : '&' ∉ tag) :
    (neutralize (asciiLower U) tag (neutralize (asciiLower U) tag text).1).1 = (neutralize (asciiLower U) tag text).1 := by
  rw [C09_unchanged U tag _ htA (C08_no_end_tag U tag text htA htamp)]

/-- C09, partial: the output is the text with exactly the offending `<` replaced by `&lt;`, provided that every `</name` in
the text is an offending one. The full claim (without the hypothesis) is false, see `C09_text_kept_fails`. -/
theorem C09_exact_partial (U : Uni) (tag text : Str) (htA : tag.all isAscii = true)
    (h : ∀ pre name post, text = pre ++ ('<' :: '/' :: name) ++ post → name.map low = tag →
      (post = [] ∨ ∃ c r, post = c :: r ∧ c ∈ ['\t', '\n', '\x0c', '\r', ' ', '/', '>'])) :
    (neutralize (asciiLower U) tag text).1 = neutralized tag text := by
  have hall : ∀ j, NeedleHere tag (text.drop j) → EndHere tag (text.drop j) := by
    rintro j ⟨name, post, h1, h2⟩
    refine ⟨name, post, h1, h2, h (text.take j) name post ?_ h2⟩
    rw [List.append_assoc, ← h1, List.take_append_drop]
  unfold neutralize
  rcases hres : neutLoop (c%"</" ++ tag) (text.length + 1) text (asciiLower U text) [] false with ⟨out, rest, ch⟩
  obtain ⟨-, -, r3, -, r5⟩ := neutLoop_inv htA _ text (asciiLower U text) [] false (by omega) (C56_ascii_fold U text) .nil _ _ _ hres
  have hr := r5 hall
  simp only [hres]
  cases ch with
  | true => simpa using hr
  | false =>
    have hno := (r3 rfl).2
    simp only [Bool.false_eq_true, if_false]
    clear hr hres r3 r5 h hall
    induction text with
    | nil => rfl
    | cons c cs ih =>
      have h0 := hno 0
      rw [neutralized, if_neg (by simpa using h0)]
      congr 1
      exact ih (fun j => by simpa using hno (j + 1))

/-- C09 is false of the code: when a look-alike such as `</scriptx` precedes a real end tag, the text up to and including
the look-alike's `<` is dropped from the output. -/
theorem C09_text_kept_fails : ¬ ∀ (U : Uni) (text : Str),
    (neutralize (asciiLower U) c%"script" text).1.length ≥ text.length := by
  intro h
  have := h Uni.sample c%"var a = 1; // </scriptx> then </script>"
  revert this
  decide

example : (neutralize (asciiLower Uni.sample) c%"script" c%"a</ScRiPt >b").1 = c%"a&lt;/ScRiPt >b" := by decide
example : HasEndTag c%"script" c%"a</ScRiPt >b" := ⟨c%"a", c%"ScRiPt", c%" >b", by decide, by decide, .inr ⟨' ', c%">b", rfl, by decide⟩⟩
example : (neutralize (asciiLower Uni.sample) c%"script" c%"keep</scriptx b</script>").1 = c%"/scriptx b&lt;/script>" := by decide

/-- C08: the text that `to_html()` writes for a text child of an HTML raw-text element, whatever the letter case of the
element's name. -/
theorem C08_serialized_text (U : Uni) (parent text tag : Str) (hp : U.lower parent = tag)
    (ht : tag ∈ [c%"iframe", c%"noembed", c%"noframes", c%"script", c%"style", c%"xmp"]) :
    ¬ HasEndTag tag (serializeTextFor U (some parent) text) := by
  have h1 : tag.all isAscii = true ∧ '&' ∉ tag ∧ literalTextElements.contains tag = true ∧ tag ≠ c%"plaintext" := by
    revert ht; clear hp
    revert tag
    decide
  unfold serializeTextFor
  simp only [hp, h1.2.2.1, if_true, if_neg h1.2.2.2]
  exact C08_no_end_tag U tag text h1.1 h1.2.1

end JH
