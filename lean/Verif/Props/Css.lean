import Verif.Model.Css
import Verif.Spec.Css
import Verif.Props.UrlList
import Verif.Props.RawText
/-! C23: inline styles. -/
namespace JH
open Spec

/-- Every occurrence of `w` in `out` is followed by a text satisfying `Q`. -/
def Follows (w : Str) (Q : Str → Prop) (out : Str) : Prop := ∀ a x b, out = a ++ x ++ b → x.map low = w → Q b

def Mono (Q : Str → Prop) : Prop := ∀ b r, Q b → Q (b ++ r)

theorem append_cut {a b c d : Str} (h : a ++ b = c ++ d) : (∃ e, a = c ++ e ∧ d = e ++ b) ∨ (∃ e, c = a ++ e ∧ b = e ++ d) := by
  rcases List.append_eq_append_iff.mp h with ⟨e, h1, h2⟩ | ⟨e, h1, h2⟩
  · exact .inr ⟨e, h1, h2⟩
  · exact .inl ⟨e, h1, h2⟩

theorem follows_join (w : Str) (Q : Str → Prop) (hQ : Mono Q) (A B : Str) (sep : Char) (hs : low sep ∉ w)
    (hA : Follows w Q (A ++ [sep])) (hB : Follows w Q B) : Follows w Q (A ++ sep :: B) := by
  intro a x b h hx
  have h' : (A ++ [sep]) ++ B = (a ++ x) ++ b := by simpa using h
  rcases append_cut h' with ⟨e, h1, h2⟩ | ⟨e, h1, h2⟩
  · rw [h2]; exact hQ _ _ (hA a x e h1 hx)
  · rcases append_cut h1.symm with ⟨f, h3, h4⟩ | ⟨f, h3, h4⟩
    · -- A ++ [sep] = a ++ f, x = f ++ e
      rcases List.eq_nil_or_concat f with rfl | ⟨f', k, rfl⟩
      · rw [List.nil_append] at h4
        exact hB [] x b (by rw [h2, ← h4]; rfl) hx
      · exfalso
        have : k = sep := by
          have := congrArg List.getLast? h3
          simpa using this.symm
        subst this
        apply hs
        rw [← hx, h4]
        simp
    · exact hB f x b (by rw [h2, h4]) hx

theorem low_paren (k : Char) (hk : low k = '(') : k = '(' := by
  rw [low_eq_lowerC] at hk
  exact lowerC_eq_nonletter (by decide) hk

theorem follows_none (w' : Str) (Q : Str → Prop) (t : Str) (ht : '(' ∉ t) : Follows (w' ++ ['(']) Q t := by
  intro a x b h hx
  exfalso
  have : '(' ∈ x.map low := by rw [hx]; simp
  obtain ⟨k, hk, e⟩ := List.mem_map.mp this
  rw [low_paren k e] at hk
  exact ht (by rw [h]; simp [hk])

theorem follows_noparen (w' : Str) (Q : Str → Prop) (hQ : Mono Q) (s t : Str) (ht : '(' ∉ t) (hs : Follows (w' ++ ['(']) Q s) :
    Follows (w' ++ ['(']) Q (s ++ t) := by
  intro a x b h hx
  obtain ⟨x', rfl⟩ : ∃ x', x = x' ++ ['('] := by
    rcases List.eq_nil_or_concat x with rfl | ⟨x', k, rfl⟩
    · simp at hx
    · refine ⟨x', ?_⟩
      have := congrArg List.getLast? hx
      simp at this
      rw [low_paren k this]
      simp
  rcases append_cut (show s ++ t = (a ++ (x' ++ ['('])) ++ b from h) with ⟨e, h1, h2⟩ | ⟨e, h1, h2⟩
  · rw [h2]; exact hQ _ _ (hs a _ e h1 hx)
  · rcases List.eq_nil_or_concat e with rfl | ⟨e', k, rfl⟩
    · rw [List.append_nil] at h1
      rw [List.nil_append] at h2
      have := hs a _ [] (by rw [h1]; simp) hx
      rw [h2] at *
      exact hQ [] b this
    · exfalso
      have : k = '(' := by
        have := congrArg List.getLast? h1
        simpa using this.symm
      subst this
      exact ht (by rw [h2]; simp)

theorem x_split (w' x : Str) (hx : x.map low = w' ++ ['(']) : ∃ x', x = x' ++ ['('] ∧ x'.map low = w' := by
  rcases List.eq_nil_or_concat x with rfl | ⟨x', k, rfl⟩
  · simp at hx
  · rw [List.concat_eq_append, List.map_append] at hx
    have h := List.append_inj' hx rfl
    have := low_paren k (by simpa using h.2)
    subst this
    exact ⟨x', by simp, h.1⟩

/-- Appending an opening parenthesis: either what follows is fine, or the word cannot end there. -/
theorem follows_open (w' : Str) (Q : Str → Prop) (hQ : Mono Q) (s t : Str) (ht : '(' ∉ t) (hs : Follows (w' ++ ['(']) Q s)
    (hend : Q t ∨ ∃ z y w'' s', s = s' ++ [z] ∧ w' = w'' ++ [y] ∧ low z ≠ y) :
    Follows (w' ++ ['(']) Q (s ++ '(' :: t) := by
  have hopen : Follows (w' ++ ['(']) (fun b => Q (b ++ t)) (s ++ ['(']) := by
    intro a x b h hx
    obtain ⟨x', rfl, hx'⟩ := x_split w' x hx
    rcases List.eq_nil_or_concat b with rfl | ⟨b', k, rfl⟩
    · have h1 : s ++ ['('] = (a ++ x') ++ ['('] := by simpa using h
      have h2 := (List.append_inj' h1 rfl).1
      rcases hend with hq | ⟨z, y, w'', s', e1, e2, e3⟩
      · exact hq
      · exfalso
        rw [e2] at hx'
        rcases List.eq_nil_or_concat x' with rfl | ⟨x'', m, rfl⟩
        · simp at hx'
        · rw [List.concat_eq_append, List.map_append] at hx'
          have h3 := (List.append_inj' hx' rfl).2
          simp at h3
          rw [e1] at h2
          have h4 : s' ++ [z] = (a ++ x'') ++ [m] := by simpa using h2
          have h5 := (List.append_inj' h4 rfl).2
          simp at h5
          exact e3 (by rw [h5]; exact h3)
    · have h1 : s ++ ['('] = (a ++ (x' ++ ['(']) ++ b') ++ [k] := by simpa using h
      have h2 := List.append_inj' h1 rfl
      rw [List.concat_eq_append, List.append_assoc]
      exact hQ _ _ (hs a _ b' h2.1 hx)
  intro a x b h hx
  have h' : (s ++ ['(']) ++ t = (a ++ x) ++ b := by simpa using h
  rcases append_cut h' with ⟨e, h1, h2⟩ | ⟨e, h1, h2⟩
  · rw [h2]; exact hopen a x e h1 hx
  · rcases List.eq_nil_or_concat e with rfl | ⟨e', k, rfl⟩
    · rw [List.append_nil] at h1
      rw [List.nil_append] at h2
      have this : Q ([] ++ t) := hopen a x [] (by rw [h1]; simp) hx
      rw [← h2]; exact this
    · exfalso
      obtain ⟨x', rfl, -⟩ := x_split w' x hx
      have h3 : (a ++ x') ++ ['('] = (s ++ '(' :: e') ++ [k] := by simpa using h1
      have h4 := (List.append_inj' h3 rfl).2
      simp at h4
      exact ht (by rw [h2, ← h4]; simp)

/-- The text produced by the `url(` rewriting. -/
theorem rewrite_follows (E : UrlEnv) (san : Str → Option Str) (lower v : Str) (w' : Str) (Q : Str → Prop) (hQ : Mono Q)
    (hw : ')' ∉ w') (hpre : ∀ i d, find? c%"url(" (lower.drop i) = some d → Follows (w' ++ ['(']) Q ((v.drop i).take d))
    (hend : ∀ i, find? c%"url(" (lower.drop i) = none → Follows (w' ++ ['(']) Q (v.drop i))
    (hopen : (∀ raw u, san raw = some u → u.any cssUnsafe = false → Q (c%"'" ++ u ++ c%"')")) ∨ ∃ w'' y, w' = w'' ++ [y] ∧ y ≠ 'l') :
    ∀ fuel i out, cssRewrite E san lower v fuel i = some out → Follows (w' ++ ['(']) Q out := by
  intro fuel
  induction fuel with
  | zero => intro i out h; simp [cssRewrite] at h
  | succ fuel ih =>
    intro i out h
    rw [cssRewrite] at h
    split at h
    · rename_i hf
      simp only [Option.some.injEq] at h
      rw [← h]; exact hend i hf
    · rename_i d hf
      split at h
      · simp at h
      · rename_i raw after _
        rw [Option.ite_none_left_eq_some] at h
        replace h := h.2
        split at h
        · simp at h
        · rename_i u hu
          rw [Option.ite_none_left_eq_some] at h
          obtain ⟨hun, h⟩ := h
          rw [Option.map_eq_some_iff] at h
          obtain ⟨r, hr, e⟩ := h
          rw [Bool.not_eq_true] at hun
          have hnp : '(' ∉ c%"'" ++ u ++ c%"'" := by
            intro hm
            simp at hm
            have := List.any_eq_false.mp hun _ hm
            simp [cssUnsafe] at this
          rw [← e]
          have e2 : (v.drop i).take d ++ c%"url('" ++ u ++ c%"')" ++ r = ((v.drop i).take d ++ c%"url('" ++ u ++ c%"'") ++ ')' :: r := by simp
          rw [e2]
          apply follows_join _ _ hQ
          · rw [show low ')' = ')' from by decide]; simp [hw]
          · have e3 : ((v.drop i).take d ++ c%"url('" ++ u ++ c%"'") ++ [')'] = ((v.drop i).take d ++ c%"url") ++ '(' :: (c%"'" ++ u ++ c%"')") := by simp
            rw [e3]
            apply follows_open _ _ hQ
            · intro hm; apply hnp; simpa using hm
            · exact follows_noparen _ _ hQ _ _ (by decide) (hpre i d hf)
            · rcases hopen with ho | ⟨w'', y, e4, e5⟩
              · exact .inl (ho raw u hu hun)
              · exact .inr ⟨'l', y, w'', (v.drop i).take d ++ c%"ur", by simp, e4, by
                  rw [show low 'l' = 'l' from by decide]; exact fun h => e5 h.symm⟩
          · exact ih _ r hr

/-! ### Values kept as they are -/

theorem isIn_tail {w : Str} {c : Char} {t : Str} (h : isIn w (c :: t) = false) : isIn w t = false := by
  rw [isIn_false_iff] at h ⊢
  intro a b e
  exact h (c :: a) b (by rw [e]; rfl)

theorem compact_eq (v c : Str) (h : cssCompact false v = some c) (hc : isIn c%"/*" v = false) :
    c = (v.filter fun x => !cssIgnorable x).map lowerC := by
  induction v generalizing c with
  | nil => simp [cssCompact] at h; subst h; rfl
  | cons x t ih =>
    have hnc : ∀ t', x = '/' → t = '*' :: t' → False := by
      intro t' h1 h2
      rw [isIn_false_iff] at hc
      exact hc [] t' (by rw [h1, h2]; rfl)
    rw [cssCompact] at h
    · by_cases hi : cssIgnorable x = true
      · rw [if_pos hi] at h
        rw [ih c h (isIn_tail hc), List.filter_cons_of_neg (by simp [hi])]
      · rw [if_neg hi, Option.map_eq_some_iff] at h
        obtain ⟨c', h1, h2⟩ := h
        rw [← h2, ih c' h1 (isIn_tail hc), List.filter_cons_of_pos (by simpa using hi)]
        rfl
    · exact hnc

/-- A word without blanks that occurs in a value occurs in its compact form. -/
theorem compact_occurs (v c w : Str) (h : cssCompact false v = some c) (hc : isIn c%"/*" v = false) (hw : w.any cssIgnorable = false)
    (ho : Occurs w v) : isIn w c = true := by
  obtain ⟨a, x, b, e, hx⟩ := ho
  rw [compact_eq v c h hc, isIn_iff, e]
  refine ⟨(a.filter fun x => !cssIgnorable x).map lowerC, (b.filter fun x => !cssIgnorable x).map lowerC, ?_⟩
  rw [List.filter_append, List.filter_append, List.map_append, List.map_append]
  have hf : x.filter (fun x => !cssIgnorable x) = x := by
    rw [List.filter_eq_self]
    intro k hk
    have hm : low k ∈ w := by rw [← hx]; exact List.mem_map_of_mem hk
    have := List.any_eq_false.mp hw _ hm
    rw [low_eq_lowerC] at this
    simp only [Bool.not_eq_true', ← Bool.not_eq_true]
    intro hi
    apply this
    rw [lowerC_eq_self]
    · exact hi
    · simp only [cssIgnorable, Bool.or_eq_true, decide_eq_true_eq] at hi
      cases hu : isUpperC k with
      | false => rfl
      | true => have := (isUpperC_iff k).1 hu; omega
  rw [hf]
  congr 2
  rw [← hx]
  exact (List.map_congr_left fun k _ => low_eq_lowerC k).symm

theorem notDisallowed (v : Str) (allowUrl : Bool) (h : cssDisallowed v allowUrl = false) :
    '\\' ∉ v ∧ ∃ c, cssCompact false v = some c ∧ (∀ w ∈ cssBlocked, isIn w c = false) ∧ (allowUrl = false → isIn c%"url(" c = false) := by
  unfold cssDisallowed at h
  by_cases hb : v.contains '\\' = true
  · rw [if_pos hb] at h; simp at h
  · rw [if_neg hb] at h
    refine ⟨by simpa using hb, ?_⟩
    split at h
    · simp at h
    · rename_i c hc
      simp only [Bool.or_eq_false_iff, List.any_eq_false, Bool.and_eq_false_iff] at h
      refine ⟨c, hc, fun w hw => by simpa using h.1.2 w hw, fun ha => ?_⟩
      rcases h.2 with h2 | h2
      · rw [ha] at h2; simp at h2
      · exact h2

theorem occurs_mono {w s v : Str} (h : ∃ a b, v = a ++ s ++ b) (ho : Occurs w s) : Occurs w v := by
  obtain ⟨a, b, e⟩ := h
  obtain ⟨a', x, b', e', hx⟩ := ho
  exact ⟨a ++ a', x, b' ++ b, by rw [e, e']; simp, hx⟩

theorem follows_false_iff (w s : Str) : Follows w (fun _ => False) s ↔ ¬ Occurs w s := by
  constructor
  · rintro h ⟨a, x, b, e, hx⟩; exact h a x b e hx
  · intro h a x b e hx; exact h ⟨a, x, b, e, hx⟩

/-! ### Lower-casing keeps positions -/

/-- Lower-casing one character, as far as it is used here. -/
def PosC (c d : Char) : Prop := isAscii c = true → d = lowerC c

theorem forall2_len {R : Char → Char → Prop} {s l : Str} (h : List.Forall₂ R s l) : s.length = l.length := by
  induction h with
  | nil => rfl
  | cons _ _ ih => simp [ih]

theorem forall2_take {R : Char → Char → Prop} {s l : Str} (h : List.Forall₂ R s l) : ∀ n, List.Forall₂ R (s.drop n) (l.drop n) := by
  induction h with
  | nil => intro n; simp only [List.drop_nil]; exact .nil
  | cons h1 h2 ih =>
    intro n
    cases n with
    | zero => exact .cons h1 h2
    | succ n => exact ih n

theorem fold_starts {s l : Str} (h : List.Forall₂ PosC s l) (x b : Str) (e : s = x ++ b) (w : Str) (hw : w.all isAscii = true) (hx : x.map low = w) :
    startsWith w l = true := by
  induction x generalizing s l w with
  | nil => simp at hx; subst hx; rfl
  | cons k x ih =>
    subst e
    cases h with
    | @cons _ m _ l' h1 h2 =>
      cases w with
      | nil => simp at hx
      | cons y w =>
        simp only [List.map_cons, List.cons.injEq, low_eq_lowerC] at hx
        simp only [List.all_cons, Bool.and_eq_true] at hw
        have hk : isAscii k = true := by rw [← isAscii_lowerC, hx.1]; exact hw.1
        have hm : m = y := by rw [h1 hk, hx.1]
        have := ih h2 rfl w hw.2 (by rw [← hx.2])
        unfold startsWith at this ⊢
        simp [List.isPrefixOf, hm, this]

theorem fold_none {s l : Str} (h : List.Forall₂ PosC s l) (w : Str) (hw : w.all isAscii = true) (hf : find? w l = none) : ¬ Occurs w s := by
  rintro ⟨a, x, b, e, hx⟩
  have h1 := forall2_take h a.length
  have h2 := fold_starts h1 x b (by rw [e, List.append_assoc, List.drop_left]) w hw hx
  have h3 : a.length ≤ l.length := by
    rw [← forall2_len h, e]; simp
  rw [find?_none hf _ h3] at h2
  simp at h2

theorem fold_before {s l : Str} (h : List.Forall₂ PosC s l) (w : Str) (hw : w.all isAscii = true) (hne : w ≠ []) (d : Nat) (hf : find? w l = some d) :
    ¬ Occurs w (s.take d) := by
  rintro ⟨a, x, b, e, hx⟩
  have e' : s = a ++ x ++ (b ++ s.drop d) := by rw [← List.append_assoc, ← e, List.take_append_drop]
  have h1 := forall2_take h a.length
  have h2 := fold_starts h1 x (b ++ s.drop d) (by rw [congrArg (List.drop a.length) e', List.append_assoc, List.drop_left]) w hw hx
  have hxl : 0 < x.length := by
    cases x with
    | nil => simp at hx; exact absurd hx hne
    | cons => simp
  have hlt : a.length < d := by
    have := congrArg List.length e
    simp at this
    omega
  rw [(find?_some hf).2.2 _ hlt] at h2
  simp at h2

/-! ### One declaration -/

theorem dropWhile_suffix (p : Char → Bool) (s : Str) : ∃ a, s = a ++ s.dropWhile p := ⟨s.takeWhile p, (List.takeWhile_append_dropWhile).symm⟩

/-- The shape of a rewritten value. -/
theorem rewrite_chars (E : UrlEnv) (san : Str → Option Str) (lower v : Str) (k : Char) (hv : k ∉ v)
    (hk : k ∉ c%"url('" ++ c%"')") (hsan : ∀ raw u, (∀ x ∈ raw, x ∈ v) → san raw = some u → u.any cssUnsafe = false → k ∉ u) :
    ∀ fuel i out, cssRewrite E san lower v fuel i = some out → k ∉ out := by
  intro fuel
  induction fuel with
  | zero => intro i out h; simp [cssRewrite] at h
  | succ fuel ih =>
    intro i out h
    rw [cssRewrite] at h
    split at h
    · simp only [Option.some.injEq] at h
      rw [← h]; exact fun hm => hv (List.mem_of_mem_drop hm)
    · rename_i d hf
      split at h
      · simp at h
      · rename_i raw after harg
        rw [Option.ite_none_left_eq_some] at h
        replace h := h.2
        split at h
        · simp at h
        · rename_i u hu
          rw [Option.ite_none_left_eq_some] at h
          obtain ⟨hun, h⟩ := h
          rw [Option.map_eq_some_iff] at h
          obtain ⟨r, hr, e⟩ := h
          rw [Bool.not_eq_true] at hun
          have hraw : ∀ x ∈ raw, x ∈ v := by
            intro x hx
            have hd : x ∈ v.drop (i + d + 4) := by
              generalize v.drop (i + d + 4) = t at harg
              obtain ⟨p, hp⟩ := dropWhile_suffix (fun c => decide (c.toNat ≤ 0x20)) t
              unfold cssUrlArg at harg
              rw [hp]
              generalize t.dropWhile (fun c => decide (c.toNat ≤ 0x20)) = t' at harg ⊢
              apply List.mem_append_right
              cases t' with
              | nil => simp at harg
              | cons q t' =>
                dsimp only at harg
                split at harg
                · rw [Option.ite_none_left_eq_some] at harg
                  replace harg := harg.2
                  split at harg
                  · simp only [Option.some.injEq, Prod.mk.injEq] at harg
                    rw [← harg.1] at hx
                    exact List.mem_cons_of_mem _ ((List.takeWhile_sublist _).subset hx)
                  · simp at harg
                · rw [Option.ite_none_left_eq_some, Option.ite_none_left_eq_some] at harg
                  replace harg := harg.2.2
                  simp only [Option.some.injEq, Prod.mk.injEq] at harg
                  rw [← harg.1] at hx
                  exact (List.takeWhile_sublist _).subset (stripP_sub _ _ _ hx)
            exact List.mem_of_mem_drop hd
          rw [← e]
          intro hm
          simp only [List.mem_append] at hm
          rcases hm with (((hm | hm) | hm) | hm) | hm
          · exact hv (List.mem_of_mem_drop (List.mem_of_mem_take hm))
          · exact hk (List.mem_append_left _ hm)
          · exact hsan raw u hraw hu hun hm
          · exact hk (List.mem_append_right _ hm)
          · exact ih _ r hr hm

/-- The text of a kept value. -/
inductive KeptValue (E : UrlEnv) (pol : Option UrlPolicy) (tag prop v : Str) : Str → Prop
  | verbatim : cssDisallowed v false = false → KeptValue E pol tag prop v v
  | urls (p : UrlPolicy) (rule : UrlRule) (o : Str) : pol = some p → cssRule p tag prop = some rule → cssDisallowed v true = false →
      isIn c%"/*" v = false → isIn c%"url(" (E.U.lower v) = true →
      cssRewrite E (sanitizeSimple E p rule tag (c%"style:" ++ prop)) (E.U.lower v) v (v.length + (E.U.lower v).length + 1) 0 = some o →
      KeptValue E pol tag prop v o

theorem cssValue_kept (E : UrlEnv) (pol : Option UrlPolicy) (tag prop v o : Str) (h : cssValue E pol tag prop v = some o) :
    KeptValue E pol tag prop v o ∧ v ≠ [] ∧ E.U.lower v ∉ cssAmbient := by
  unfold cssValue at h
  rw [Option.ite_none_left_eq_some, Option.ite_none_left_eq_some] at h
  obtain ⟨h1, h2, h⟩ := h
  refine ⟨?_, by simpa using h1, by simpa using h2⟩
  by_cases hd : cssDisallowed v false = true
  · rw [if_pos hd] at h
    cases pol with
    | none => simp at h
    | some p =>
      dsimp only at h
      rw [Option.ite_none_left_eq_some] at h
      obtain ⟨h3, h⟩ := h
      unfold cssUrls at h
      split at h
      · simp at h
      · rename_i rule hr
        unfold cssUrlValue at h
        rw [Option.ite_none_left_eq_some, Option.ite_none_left_eq_some] at h
        obtain ⟨h4, h5, h⟩ := h
        simp only [Bool.or_eq_true, not_or, Bool.not_eq_true] at h4
        exact .urls p rule o rfl hr (by simpa using h3) h4.2 (by simpa using h5) h
  · rw [if_neg hd] at h
    simp only [Option.some.injEq] at h
    subst h
    exact .verbatim (by simpa using hd)

theorem cssDecl_kept (E : UrlEnv) (allowed : List Str) (pol : Option UrlPolicy) (tag decl : Str) (d : Str × Str)
    (h : cssDecl E allowed pol tag decl = some d) :
    d.1 ∈ allowed ∧ validCssProp d.1 = true ∧ ∃ v, (∀ x ∈ v, x ∈ decl) ∧ cssValue E pol tag d.1 v = some d.2 := by
  unfold cssDecl at h
  dsimp only at h
  rw [Option.ite_none_left_eq_some, Option.ite_none_left_eq_some, Option.map_eq_some_iff] at h
  obtain ⟨-, h1, o, h2, rfl⟩ := h
  simp only [Bool.or_eq_true, Bool.not_eq_eq_eq_not, Bool.not_true, not_or, Bool.not_eq_false, List.contains_iff_mem] at h1
  refine ⟨h1.2, h1.1, _, ?_, h2⟩
  intro x hx
  have := List.mem_of_mem_drop (stripP_sub _ _ _ hx)
  exact stripP_sub _ _ _ ((List.dropWhile_sublist _).subset this)

theorem splitC_mem (c : Char) (s p : Str) (h : p ∈ splitC c s) : ∀ x ∈ p, x ∈ s := by
  induction s generalizing p with
  | nil => simp [splitC] at h; subst h; simp
  | cons a s ih =>
    rw [splitC] at h
    split at h
    · rename_i hs; exact absurd hs (splitC_ne_nil c s)
    · rename_i w ws hs
      rw [hs] at ih
      by_cases ha : a = c
      · rw [if_pos ha] at h
        rcases List.mem_cons.mp h with rfl | h
        · simp
        · exact fun x hx => List.mem_cons_of_mem _ (ih p h x hx)
      · rw [if_neg ha] at h
        rcases List.mem_cons.mp h with rfl | h
        · intro x hx
          rcases List.mem_cons.mp hx with rfl | hx
          · simp
          · exact List.mem_cons_of_mem _ (ih w (by simp) x hx)
        · exact fun x hx => List.mem_cons_of_mem _ (ih p (by simp [h]) x hx)

theorem style_kept (E : UrlEnv) (allowed : List Str) (pol : Option UrlPolicy) (tag v out : Str)
    (h : sanitizeStyle E allowed pol tag v = some out) :
    ∃ ds, ds ≠ [] ∧ out = join c%"; " (ds.map cssText) ∧ ∀ d ∈ ds, d.1 ∈ allowed ∧ validCssProp d.1 = true ∧
      ∃ v', (∀ x ∈ v', x ∈ v ∧ x ≠ ';') ∧ cssValue E pol (E.U.lower tag) d.1 v' = some d.2 := by
  unfold sanitizeStyle at h
  rw [Option.ite_none_left_eq_some] at h
  replace h := h.2
  split at h
  · simp at h
  · rename_i ds hne
    simp only [Option.some.injEq] at h
    refine ⟨cssDecls E allowed pol tag v, hne, h.symm, ?_⟩
    intro d hd
    unfold cssDecls at hd
    rw [List.mem_filterMap] at hd
    obtain ⟨decl, h1, h2⟩ := hd
    obtain ⟨k1, k2, v', k3, k4⟩ := cssDecl_kept E allowed pol _ decl d h2
    refine ⟨k1, k2, v', fun x hx => ⟨?_, ?_⟩, k4⟩
    · exact splitC_mem ';' v decl h1 x (k3 x hx)
    · rintro rfl
      exact splitC_pieces ';' v decl h1 (k3 _ hx)

/-! ### The whole attribute -/

theorem join_cons2 (sep a b : Str) (r : List Str) : join sep (a :: b :: r) = a ++ sep ++ join sep (b :: r) := by
  rw [join] <;> simp

theorem join_infix (sep : Str) (ts : List Str) (t : Str) (h : t ∈ ts) : ∃ a b, join sep ts = a ++ t ++ b := by
  induction ts with
  | nil => simp at h
  | cons x ts ih =>
    cases ts with
    | nil => simp at h; subst h; exact ⟨[], [], by simp [join]⟩
    | cons y ts =>
      rw [join_cons2]
      rcases List.mem_cons.mp h with rfl | h
      · exact ⟨[], sep ++ join sep (y :: ts), by simp⟩
      · obtain ⟨a, b, e⟩ := ih h
        exact ⟨x ++ sep ++ a, b, by rw [e]; simp⟩

theorem join_follows (w' : Str) (Q : Str → Prop) (hQ : Mono Q) (hw : ' ' ∉ w') (ts : List Str) (h : ∀ t ∈ ts, Follows (w' ++ ['(']) Q t) :
    Follows (w' ++ ['(']) Q (join c%"; " ts) := by
  induction ts with
  | nil => exact follows_none _ _ _ (by simp [join])
  | cons x ts ih =>
    cases ts with
    | nil => rw [join]; exact h x (by simp)
    | cons y ts =>
      rw [join_cons2, show x ++ c%"; " ++ join c%"; " (y :: ts) = (x ++ c%";") ++ ' ' :: join c%"; " (y :: ts) by simp]
      apply follows_join _ _ hQ
      · rw [show low ' ' = ' ' from by decide]; simp [hw]
      · rw [List.append_assoc]
        exact follows_noparen _ _ hQ _ _ (by decide) (h x (by simp))
      · exact ih fun t ht => h t (by simp [ht])

theorem text_follows (w' : Str) (Q : Str → Prop) (hQ : Mono Q) (hw : ' ' ∉ w') (d : Str × Str) (hp : '(' ∉ d.1)
    (h : Follows (w' ++ ['(']) Q d.2) : Follows (w' ++ ['(']) Q (cssText d) := by
  unfold cssText
  rw [show d.1 ++ c%": " ++ d.2 = (d.1 ++ c%":") ++ ' ' :: d.2 by simp]
  apply follows_join _ _ hQ
  · rw [show low ' ' = ' ' from by decide]; simp [hw]
  · exact follows_none _ _ _ (by simp [hp])
  · exact h

theorem validProp_char (name : Str) (h : validCssProp name = true) : name ≠ [] ∧ ∀ x ∈ name, isLowerC x = true ∨ isDigitC x = true ∨ x = '-' := by
  simp only [validCssProp, Bool.and_eq_true, Bool.not_eq_eq_eq_not, Bool.not_true, List.isEmpty_eq_false_iff, List.all_eq_true,
    Bool.or_eq_true, decide_eq_true_eq, or_assoc] at h
  exact h

theorem validProp_not (name : Str) (h : validCssProp name = true) (k : Char) (hk : isLowerC k = false ∧ isDigitC k = false ∧ k ≠ '-') : k ∉ name := by
  intro hm
  rcases (validProp_char name h).2 k hm with h1 | h1 | h1
  · rw [hk.1] at h1; simp at h1
  · rw [hk.2.1] at h1; simp at h1
  · exact hk.2.2 h1

theorem kept_noEscape (E : UrlEnv) (pol : Option UrlPolicy) (tag prop v o : Str) (h : KeptValue E pol tag prop v o) : '\\' ∉ o := by
  cases h with
  | verbatim hd => exact (notDisallowed v false hd).1
  | urls p rule o _ _ hd _ _ hr =>
    refine rewrite_chars E _ _ v '\\' (notDisallowed v true hd).1 (by decide) ?_ _ _ o hr
    intro raw u _ _ hu hm
    have := List.any_eq_false.mp hu _ hm
    exact this (by decide)

/-- C23: a kept style is a list of declarations `name: value` whose names are allowed (and consist of lower-case ASCII letters,
digits and hyphens) and whose values are not empty, contain no escape and are not one of the inheritance keywords. -/
theorem C23_declarations (E : UrlEnv) (allowed : List Str) (pol : Option UrlPolicy) (tag value out : Str)
    (h : sanitizeStyle E allowed pol tag value = some out) :
    ∃ ds : List (Str × Str), ds ≠ [] ∧ out = join c%"; " (ds.map fun d => d.1 ++ c%": " ++ d.2) ∧ ∀ d ∈ ds,
      d.1 ∈ allowed ∧ d.1 ≠ [] ∧ (∀ x ∈ d.1, ('a' ≤ x ∧ x ≤ 'z') ∨ ('0' ≤ x ∧ x ≤ '9') ∨ x = '-') ∧
      d.2 ≠ [] ∧ '\\' ∉ d.2 ∧ d.2.map low ∉ [c%"inherit", c%"revert", c%"revert-layer", c%"unset"] := by
  obtain ⟨ds, h1, h2, h3⟩ := style_kept E allowed pol tag value out h
  refine ⟨ds, h1, h2, fun d hd => ?_⟩
  obtain ⟨k1, k2, v', -, k4⟩ := h3 d hd
  obtain ⟨k5, k6, k7⟩ := cssValue_kept _ _ _ _ _ _ k4
  have kc := validProp_char _ k2
  have hlo : ∀ w ∈ cssAmbient, '(' ∉ w ∧ w.all isAscii = true ∧ w.any isUpperC = false := by decide
  have hparen : ∀ p rule, cssRewrite E (sanitizeSimple E p rule (E.U.lower tag) (c%"style:" ++ d.1)) (E.U.lower v') v'
      (v'.length + (E.U.lower v').length + 1) 0 = some d.2 → isIn c%"url(" (E.U.lower v') = true → '(' ∈ d.2 := by
    intro p rule hr hin
    rw [cssRewrite] at hr
    unfold isIn at hin
    rw [List.drop_zero] at hr
    split at hr
    · rename_i hf; rw [hf] at hin; simp at hin
    · split at hr
      · simp at hr
      · rw [Option.ite_none_left_eq_some] at hr
        replace hr := hr.2
        split at hr
        · simp at hr
        · rw [Option.ite_none_left_eq_some, Option.map_eq_some_iff] at hr
          obtain ⟨-, r, -, e⟩ := hr
          rw [← e]; simp
  refine ⟨k1, kc.1, ?_, ?_, kept_noEscape _ _ _ _ _ _ k5, ?_⟩
  · intro x hx
    rcases kc.2 x hx with h | h | h
    · left; simp only [isLowerC, Bool.and_eq_true, decide_eq_true_eq] at h; exact h
    · right; left; simp only [isDigitC, Bool.and_eq_true, decide_eq_true_eq] at h; exact h
    · exact .inr (.inr h)
  · generalize hd2 : d.2 = o at k5
    cases k5 with
    | verbatim => exact k6
    | urls p rule o _ _ _ _ hin hr =>
      have := hparen p rule (by rw [hd2]; exact hr) hin
      rw [hd2] at this
      intro e; rw [e] at this; simp at this
  · generalize hd2 : d.2 = o at k5
    cases k5 with
    | verbatim hdis =>
      intro hm
      apply k7
      have hl : v'.map low = lowerA v' := List.map_congr_left fun k _ => low_eq_lowerC k
      rw [hl] at hm
      have ha : v'.all isAscii = true := by
        rw [List.all_eq_true]
        intro x hx
        rw [← isAscii_lowerC]
        exact List.all_eq_true.mp (hlo _ hm).2.1 _ (List.mem_map_of_mem hx)
      rw [E.U.lower_ascii v' ha]
      exact hm
    | urls p rule o _ _ _ _ hin hr =>
      have := hparen p rule (by rw [hd2]; exact hr) hin
      rw [hd2] at this
      intro hm
      apply (hlo _ hm).1
      exact List.mem_map.mpr ⟨'(', this, by decide⟩

theorem out_nocomment (ds : List (Str × Str)) (out : Str) (ho : out = join c%"; " (ds.map cssText)) (hc : isIn c%"/*" out = false) :
    ∀ d ∈ ds, isIn c%"/*" d.2 = false := by
  intro d hd
  rw [isIn_false_iff] at hc ⊢
  intro a b e
  obtain ⟨a', b', e'⟩ := join_infix c%"; " (ds.map cssText) (cssText d) (List.mem_map_of_mem hd)
  apply hc (a' ++ d.1 ++ c%": " ++ a) (b ++ b')
  rw [ho, e', cssText, e]; simp

/-- C23, part: in a kept style without comments no resource-loading function other than `url()` occurs, in any mix of case. (With a
comment in the value the claim is false, `C23_comment_fails`.) -/
theorem C23_functions_partial (E : UrlEnv) (allowed : List Str) (pol : Option UrlPolicy) (tag value out : Str)
    (h : sanitizeStyle E allowed pol tag value = some out) (hc : isIn c%"/*" out = false) :
    ∀ w ∈ loadingFunctions, ¬ Occurs w out := by
  intro w hw
  obtain ⟨ds, h1, h2, h3⟩ := style_kept E allowed pol tag value out h
  have hb : w ∈ cssBlocked ∧ w.any cssIgnorable = false ∧ ∃ w'' y, w = w'' ++ [y] ++ ['('] ∧ ' ' ∉ w'' ++ [y] ∧ ')' ∉ w'' ++ [y] ∧ y ≠ 'l' := by
    simp only [loadingFunctions, List.mem_cons, List.not_mem_nil, or_false] at hw
    rcases hw with rfl | rfl | rfl | rfl | rfl
    · exact ⟨by decide, by decide, c%"va", 'r', by decide, by decide, by decide, by decide⟩
    · exact ⟨by decide, by decide, c%"sr", 'c', by decide, by decide, by decide, by decide⟩
    · exact ⟨by decide, by decide, c%"imag", 'e', by decide, by decide, by decide, by decide⟩
    · exact ⟨by decide, by decide, c%"image-se", 't', by decide, by decide, by decide, by decide⟩
    · exact ⟨by decide, by decide, c%"expressio", 'n', by decide, by decide, by decide, by decide⟩
  obtain ⟨hb1, hb2, w'', y, rfl, hb3, hb4, hb5⟩ := hb
  have hQ : Mono (fun _ => False) := fun _ _ h => h
  rw [← follows_false_iff, h2]
  apply join_follows _ _ hQ hb3
  intro t ht
  obtain ⟨d, hd, rfl⟩ := List.mem_map.mp ht
  obtain ⟨k1, k2, v', -, k4⟩ := h3 d hd
  apply text_follows _ _ hQ hb3 _ (validProp_not _ k2 _ (by decide))
  have hnc := out_nocomment ds out h2 hc d hd
  have hk := (cssValue_kept _ _ _ _ _ _ k4).1
  generalize d.2 = o at hk hnc
  have sub : ∀ s allow, (∃ a b, v' = a ++ s ++ b) → isIn c%"/*" v' = false → cssDisallowed v' allow = false → Follows (w'' ++ [y] ++ ['(']) (fun _ => False) s := by
    intro s allow hs hn hd
    rw [follows_false_iff]
    intro ho
    obtain ⟨-, c, e1, e2, -⟩ := notDisallowed v' allow hd
    exact absurd (e2 _ hb1) (by rw [compact_occurs v' c _ e1 hn hb2 (occurs_mono hs ho)]; simp)
  cases hk with
  | verbatim hdis => exact sub v' false ⟨[], [], by simp⟩ hnc hdis
  | urls p rule o _ _ hdis hn hin hr =>
    refine rewrite_follows E _ _ v' (w'' ++ [y]) _ hQ hb4 ?_ ?_ (.inr ⟨w'', y, rfl, hb5⟩) _ _ o hr
    · intro i d _
      exact sub _ true ⟨v'.take i, (v'.drop i).drop d, by rw [List.append_assoc, List.take_append_drop, List.take_append_drop]⟩ hn hdis
    · intro i _
      exact sub _ true ⟨v'.take i, [], by rw [List.append_nil, List.take_append_drop]⟩ hn hdis

/-- C23, part: in a kept style without comments every `url(` (in any mix of case) is followed by a quoted URL that the rule for
this element and property approved, and that has no quotes, parentheses, blanks or escapes. Without a URL policy there is none.
Missing: values with comments and values with U+0130, for which the claim is false (`C23_comment_fails`, `C23_offset_fails`). -/
theorem C23_urls_partial (E : UrlEnv) (allowed : List Str) (pol : Option UrlPolicy) (tag value out : Str)
    (h : sanitizeStyle E allowed pol tag value = some out) (hc : isIn c%"/*" out = false) (hi : '\u0130' ∉ value) :
    UrlsApproved (fun u => (∀ x ∈ u, x ∉ c%"'\"()\\" ∧ 0x20 < x.toNat) ∧ ∃ p prop rule raw, pol = some p ∧ prop ∈ allowed ∧
      (p.rules.lookup (E.U.lower tag, c%"style:" ++ prop) = some rule ∨ p.rules.lookup (c%"*", c%"style:" ++ prop) = some rule) ∧
      sanitizeUrl E rule (E.U.lower tag) (c%"style:" ++ prop) (effHandling p rule) (effAllowRelative p rule) (effProxy p rule) p.filter raw = some u) out := by
  obtain ⟨ds, h1, h2, h3⟩ := style_kept E allowed pol tag value out h
  generalize hok : (fun u : Str => (∀ x ∈ u, x ∉ c%"'\"()\\" ∧ 0x20 < x.toNat) ∧ ∃ p prop rule raw, pol = some p ∧ prop ∈ allowed ∧
      (p.rules.lookup (E.U.lower tag, c%"style:" ++ prop) = some rule ∨ p.rules.lookup (c%"*", c%"style:" ++ prop) = some rule) ∧
      sanitizeUrl E rule (E.U.lower tag) (c%"style:" ++ prop) (effHandling p rule) (effAllowRelative p rule) (effProxy p rule) p.filter raw = some u) = ok
  have hQ : Mono (fun b => ∃ u r, b = c%"'" ++ u ++ c%"')" ++ r ∧ ok u) := by
    rintro b r ⟨u, r', rfl, hu⟩
    exact ⟨u, r' ++ r, by simp, hu⟩
  show Follows (c%"url" ++ ['(']) _ out
  rw [h2]
  apply join_follows _ _ hQ (by decide)
  intro t ht
  obtain ⟨d, hd, rfl⟩ := List.mem_map.mp ht
  obtain ⟨k1, k2, v', ksub, k4⟩ := h3 d hd
  apply text_follows _ _ hQ (by decide) _ (validProp_not _ k2 _ (by decide))
  have hnc := out_nocomment ds out h2 hc d hd
  have hk := (cssValue_kept _ _ _ _ _ _ k4).1
  generalize d.2 = o at hk hnc
  have weak : ∀ s, ¬ Occurs c%"url(" s → Follows (c%"url" ++ ['(']) (fun b => ∃ u r, b = c%"'" ++ u ++ c%"')" ++ r ∧ ok u) s := by
    intro s hs a x b e hx
    exact absurd ⟨a, x, b, e, hx⟩ hs
  cases hk with
  | verbatim hdis =>
    apply weak
    intro ho
    obtain ⟨-, c, e1, -, e2⟩ := notDisallowed v' false hdis
    rw [compact_occurs v' c _ e1 hnc (by decide) ho] at e2
    simp at e2
  | urls p rule o hp hrule hdis hn hin hr =>
    have hpos : List.Forall₂ PosC v' (E.U.lower v') := E.U.lower_pos v' fun hm => hi (ksub _ hm).1
    refine rewrite_follows E _ _ v' c%"url" _ hQ (by decide) ?_ ?_ (.inl ?_) _ _ o hr
    · intro i d hf
      exact weak _ (fold_before (forall2_take hpos i) c%"url(" (by decide) (by decide) d hf)
    · intro i hf
      exact weak _ (fold_none (forall2_take hpos i) c%"url(" (by decide) hf)
    · intro raw u hu hun
      refine ⟨u, [], by simp, ?_⟩
      rw [← hok]
      refine ⟨?_, p, d.1, rule, raw, hp, k1, ?_, hu⟩
      · intro x hx
        have := List.any_eq_false.mp hun x hx
        simp only [cssUnsafe, cssIgnorable, Bool.or_eq_true, decide_eq_true_eq, not_or] at this
        refine ⟨?_, by omega⟩
        simp only [List.mem_cons, List.not_mem_nil, or_false, not_or]
        exact ⟨this.1.1.1.1.2, this.1.1.1.2, this.1.1.2, this.1.2, this.2⟩
      · unfold cssRule at hrule
        split at hrule
        · rename_i r hl; simp only [Option.some.injEq] at hrule; subst hrule; exact .inl hl
        · exact .inr hrule

/-! ### Declaration boundaries -/

theorem kept_noSemi (E : UrlEnv) (rule : UrlRule) (tag attr : Str) (rel : Bool) (proxy : Option UrlProxy)
    (t u : Str) (h : UrlHandling) (hh : h ≠ .proxy) (hres : ∀ r, rule.resolve = some r → SchemeName r) (ht : ';' ∉ t)
    (hk : sanitizeUrl E rule tag attr h rel proxy none t = some u) : ';' ∉ u := by
  unfold sanitizeUrl at hk
  dsimp only at hk
  obtain ⟨hc, hb, hne, -, v, ha, hf⟩ := checkStripped_accept E rule h rel proxy _ u (stripP_head _ _) (stripP_last _ _) hk
  have hsub : ∀ x ∈ stripP E.U.isSpace (stripInvisible t), x ∈ t := fun x hx => stripInvisible_sub _ _ (stripP_sub _ _ _ hx)
  generalize stripP E.U.isSpace (stripInvisible t) = s at *
  have hs : ';' ∉ s := fun hm => ht (hsub _ hm)
  have huv : u = v := by
    cases h with
    | allow => simpa [finishUrl] using hf.symm
    | strip => simp [finishUrl] at hf
    | proxy => exact absurd rfl hh
  rw [huv]
  cases ha with
  | fragment => exact hs
  | bare => exact hs
  | absolute => exact hs
  | relative => exact hs
  | resolved r0 h1 h2 h3 h4 _ =>
    have hval := (schemeName_iff r0).mp (hres r0 h1)
    have hva := validScheme_char r0 hval
    rw [E.U.lower_ascii _ (List.all_eq_true.mpr fun x hx => (hva x hx).2.2.2.2.2.2)]
    have hvl := lowerA_valid r0 hval
    intro hx
    rw [List.mem_append, List.mem_append] at hx
    rcases hx with (hx | hx) | hx
    · have : schemeChar ';' = true := by
        cases hr : lowerA r0 with
        | nil => rw [hr] at hx; simp at hx
        | cons f r =>
          rw [hr] at hvl hx
          simp only [isValidScheme, Bool.and_eq_true, List.all_eq_true] at hvl
          rw [schemeChar_eq]
          rcases List.mem_cons.mp hx with e | hx
          · rw [e]; simp [hvl.1]
          · exact hvl.2 _ hx
      exact absurd this (by decide)
    · simp at hx
    · rw [normUrl_eq, List.mem_filter] at hx; exact hs hx.1

theorem join_boundary (ts : List Str) (hn : ∀ t ∈ ts, ';' ∉ t) (a b : Str) (h : join c%"; " ts = a ++ ';' :: b) :
    ∃ t ∈ ts, ∃ r, b = ' ' :: t ++ r := by
  induction ts generalizing a with
  | nil => simp [join] at h
  | cons x ts ih =>
    cases ts with
    | nil => rw [join] at h; exact absurd (by rw [h]; simp) (hn x (by simp))
    | cons y ts =>
      rw [join_cons2, List.append_assoc] at h
      have h0 : x ++ (';' :: ' ' :: join c%"; " (y :: ts)) = a ++ ';' :: b := h
      rcases append_cut h0 with ⟨e, e1, e2⟩ | ⟨e, e1, e2⟩
      · cases e with
        | nil =>
          simp at e2
          have : ∃ r, join c%"; " (y :: ts) = y ++ r := by
            cases ts with
            | nil => exact ⟨[], by simp [join]⟩
            | cons z ts => rw [join_cons2]; exact ⟨c%"; " ++ join c%"; " (z :: ts), by simp⟩
          obtain ⟨r, hr⟩ := this
          exact ⟨y, by simp, r, by rw [e2, hr]; rfl⟩
        | cons k e =>
          simp at e2
          exfalso
          apply hn x (by simp)
          rw [e1, e2.1]; simp
      · cases e with
        | nil =>
          simp at e2
          have : ∃ r, join c%"; " (y :: ts) = y ++ r := by
            cases ts with
            | nil => exact ⟨[], by simp [join]⟩
            | cons z ts => rw [join_cons2]; exact ⟨c%"; " ++ join c%"; " (z :: ts), by simp⟩
          obtain ⟨r, hr⟩ := this
          exact ⟨y, by simp, r, by rw [← e2, hr]; rfl⟩
        | cons k e =>
          simp only [List.cons_append, List.cons.injEq] at e2
          cases e with
          | nil => simp at e2
          | cons m e =>
            simp only [List.cons_append, List.cons.injEq] at e2
            obtain ⟨t, ht, r, hr⟩ := ih (fun t ht => hn t (by simp [ht])) e e2.2.2
            exact ⟨t, by simp [ht], r, hr⟩

/-- C23: however a CSS parser nests strings, blocks and functions, a declaration can only begin at the start of the kept style or
after a `;`, and at each of these places the style continues with an allowed property name and a colon. (For URL policies that
neither rewrite URLs through a proxy nor through a filter function.) -/
theorem C23_boundaries (E : UrlEnv) (allowed : List Str) (pol : Option UrlPolicy) (tag value out : Str)
    (hpol : ∀ p, pol = some p → p.filter = none ∧ ∀ k r, p.rules.lookup k = some r →
      effHandling p r ≠ .proxy ∧ ∀ s, r.resolve = some s → SchemeName s)
    (h : sanitizeStyle E allowed pol tag value = some out) :
    (∃ p ∈ allowed, ∃ r, out = p ++ c%":" ++ r) ∧
      ∀ a b, out = a ++ ';' :: b → ∃ p ∈ allowed, ∃ r, b = c%" " ++ p ++ c%":" ++ r := by
  obtain ⟨ds, h1, h2, h3⟩ := style_kept E allowed pol tag value out h
  constructor
  · cases ds with
    | nil => simp at h1
    | cons d ds =>
      refine ⟨d.1, (h3 d (by simp)).1, ?_⟩
      rw [h2]
      cases ds with
      | nil => exact ⟨c%" " ++ d.2, by simp [join, cssText]⟩
      | cons e ds => rw [List.map_cons, List.map_cons, join_cons2]; exact ⟨c%" " ++ d.2 ++ c%"; " ++ join c%"; " (cssText e :: ds.map cssText), by simp [cssText]⟩
  · intro a b hab
    have hn : ∀ t ∈ ds.map cssText, ';' ∉ t := by
      intro t ht
      obtain ⟨d, hd, rfl⟩ := List.mem_map.mp ht
      obtain ⟨-, k2, v', ksub, k4⟩ := h3 d hd
      have hp := validProp_not _ k2 ';' (by decide)
      have hk := (cssValue_kept _ _ _ _ _ _ k4).1
      have hv' : ';' ∉ v' := fun hm => (ksub _ hm).2 rfl
      have : ';' ∉ d.2 := by
        generalize d.2 = o at hk
        cases hk with
        | verbatim => exact hv'
        | urls p rule o hpp hrule hdis hnc hin hr =>
          refine rewrite_chars E _ _ v' ';' hv' (by decide) ?_ _ _ o hr
          intro raw u hraw hu _
          obtain ⟨q1, q2⟩ := hpol p hpp
          have hl : ∃ k, p.rules.lookup k = some rule := by
            unfold cssRule at hrule
            split at hrule
            · rename_i r hl; simp only [Option.some.injEq] at hrule; subst hrule; exact ⟨_, hl⟩
            · exact ⟨_, hrule⟩
          obtain ⟨k, hk⟩ := hl
          unfold sanitizeSimple at hu
          rw [q1] at hu
          exact kept_noSemi E rule _ _ _ _ raw u _ (q2 k rule hk).1 (q2 k rule hk).2 (fun hm => hv' (hraw _ hm)) hu
      unfold cssText
      intro hm
      simp only [List.mem_append] at hm
      rcases hm with (hm | hm) | hm
      · exact hp hm
      · exact absurd hm (by decide)
      · exact this hm
    rw [h2] at hab
    obtain ⟨t, ht, r, hr⟩ := join_boundary _ hn a b hab
    obtain ⟨d, hd, rfl⟩ := List.mem_map.mp ht
    exact ⟨d.1, (h3 d hd).1, c%" " ++ d.2 ++ r, by rw [hr, cssText]; simp⟩

/-- A URL policy for the examples: local images only. -/
def cssPolicySample : UrlPolicy := { rules := [((c%"*", c%"style:background-image"), { resolve := none })] }

set_option maxRecDepth 8000 in
example : sanitizeStyle UrlEnv.sample [c%"color", c%"background-image"] (some cssPolicySample) c%"p"
    c%"COLOR: Red;x:y;color:inherit;Background-Image: URL( \"/a b\" );background-image: URL( \"/a\" ) , red" =
    some c%"color: Red; background-image: url('/a') , red" := by decide

example : sanitizeStyle UrlEnv.sample [c%"color"] none c%"p" c%"color: u/**/rl(x); color: e\\xpression(1)" = none := by decide

/-- C23 is false of the code (finding F23): the scan treats `/*` inside a CSS string as a comment, so a `url()` between it and the
next `*/` is never seen, although no URL policy is configured at all. -/
theorem C23_comment_fails :
    sanitizeStyle UrlEnv.sample [c%"list-style"] none c%"p" c%"list-style: '/*' url(https://evil/*/)" =
      some c%"list-style: '/*' url(https://evil/*/)" ∧
    cssLoads (.plain []) c%" '/*' url(https://evil/*/)" = [c%"https://evil/*/"] := by
  constructor <;> decide

/-- Like `Uni.sample`, with CPython's lower case of U+0130, which has two characters. -/
def Uni.dotted : Uni :=
  { Uni.sample with
    lower := fun s => s.flatMap fun c => if c = '\u0130' then ['i', '\u0307'] else [lowerC c]
    lower_idem := fun s => by
      induction s with
      | nil => rfl
      | cons c s ih =>
        rw [List.flatMap_cons, List.flatMap_append, ih]
        congr 1
        by_cases h : c = '\u0130'
        · rw [if_pos h]; decide
        · rw [if_neg h]
          have h' : lowerC c ≠ '\u0130' := by
            intro e
            by_cases hu : isUpperC c = true
            · have := lowerC_toNat c hu
              rw [e] at this
              have : '\u0130'.toNat = 304 := rfl
              omega
            · rw [lowerC, if_neg hu] at e; exact h e
          simp [h', lowerC_idem]
    lower_ne := fun s hs => by
      obtain ⟨c, t, rfl⟩ := List.exists_cons_of_ne_nil hs
      rw [List.flatMap_cons]
      split <;> simp
    lower_head := fun c s hc => by
      have : c ≠ '\u0130' := by rintro rfl; exact absurd hc (by decide)
      rw [List.flatMap_cons, if_neg this]; rfl
    lower_mem := fun s c ha h => by
      have : c ≠ '\u0130' := by rintro rfl; exact absurd ha (by decide)
      exact List.mem_flatMap.2 ⟨c, h, by rw [if_neg this]; simp⟩
    lower_lowerA := fun s => by
      induction s with
      | nil => rfl
      | cons c s ih =>
        simp only [lowerA, List.map_cons] at ih ⊢
        rw [List.flatMap_cons, List.flatMap_cons, ih]
        congr 1
        by_cases h : c = '\u0130'
        · rw [h]; decide
        · rw [if_neg h]
          have h' : lowerC c ≠ '\u0130' := by
            intro e
            by_cases hu : isUpperC c = true
            · have := lowerC_toNat c hu
              rw [e] at this
              have : '\u0130'.toNat = 304 := rfl
              omega
            · rw [lowerC, if_neg hu] at e; exact h e
          rw [if_neg h', lowerC_idem]
    lower_from := fun s c _ ha h => by
      obtain ⟨d, hd, he⟩ := List.mem_flatMap.1 h
      by_cases h : d = '\u0130'
      · rw [if_pos h] at he
        simp only [List.mem_cons, List.not_mem_nil, or_false] at he
        rcases he with rfl | rfl
        · exact absurd ha (by decide)
        · exact absurd ‹isAscii _ = true› (by decide)
      · rw [if_neg h] at he
        simp only [List.mem_cons, List.not_mem_nil, or_false] at he
        subst he
        rw [lowerC_nonalpha d ha]; exact hd
    lower_space := fun s hs c hc => by
      obtain ⟨d, hd, he⟩ := List.mem_flatMap.1 hc
      by_cases h : d = '\u0130'
      · rw [if_pos h] at he
        simp only [List.mem_cons, List.not_mem_nil, or_false] at he
        rcases he with rfl | rfl <;> decide
      · rw [if_neg h, List.mem_singleton] at he
        exact Uni.sample.lower_space s hs c (List.mem_map.2 ⟨d, hd, he.symm⟩)
    lower_ascii := fun s h => by
      induction s with
      | nil => rfl
      | cons c s ih =>
        simp only [List.all_cons, Bool.and_eq_true] at h
        have : c ≠ '\u0130' := by rintro rfl; exact absurd h.1 (by decide)
        simp only [List.flatMap_cons, if_neg this]
        rw [ih h.2]; rfl
    lower_fold := fun s h1 h2 => by
      have hs : (s.flatMap fun c => if c = '\u0130' then ['i', '\u0307'] else [lowerC c]) = lowerA s := by
        induction s with
        | nil => rfl
        | cons c s ih =>
          simp only [List.mem_cons, not_or] at h1 h2
          have h0 : ¬ c = '\u0130' := fun e => h1.1 e.symm
          simp only [List.flatMap_cons, if_neg h0]
          rw [ih h1.2 h2.2]; rfl
      rw [hs]
      exact Uni.sample.lower_fold s h1 h2
    lower_pos := fun s h1 => by
      have hs : (s.flatMap fun c => if c = '\u0130' then ['i', '\u0307'] else [lowerC c]) = lowerA s := by
        induction s with
        | nil => rfl
        | cons c s ih =>
          simp only [List.mem_cons, not_or] at h1
          have h0 : ¬ c = '\u0130' := fun e => h1.1 e.symm
          simp only [List.flatMap_cons, if_neg h0]
          rw [ih h1.2]; rfl
      rw [hs]
      exact Uni.sample.lower_pos s h1 }

def UrlEnv.dotted : UrlEnv :=
  { UrlEnv.sample with
    U := Uni.dotted
    lower_visible := fun s hs c hc => by
      obtain ⟨d, hd, he⟩ := List.mem_flatMap.1 hc
      by_cases h : d = '\u0130'
      · rw [if_pos h] at he
        simp only [List.mem_cons, List.not_mem_nil, or_false] at he
        rcases he with rfl | rfl <;> decide
      · rw [if_neg h, List.mem_singleton] at he
        exact UrlEnv.sample.lower_visible s hs c (List.mem_map.2 ⟨d, hd, he.symm⟩) }

set_option maxRecDepth 20000 in
/-- C23 is false of the code (finding F22): offsets found in the lower-cased value are used in the value itself; U+0130 has a
two-character lower case, so ten of them move the search past the second `url(`, which is then kept as it is. -/
theorem C23_offset_fails :
    sanitizeStyle UrlEnv.dotted [c%"background-image"] (some cssPolicySample) c%"p"
      c%"background-image: url(/İİİİİİİİİİ), url(//e), url(/aaaaaaaa)" =
      some c%"background-image: url('/İİİİİİİİİİ'), url(//e), url('/aaaaaaaa')" ∧
    cssLoads (.plain []) c%" url('/İİİİİİİİİİ'), url(//e), url('/aaaaaaaa')" = [c%"/İİİİİİİİİİ", c%"//e", c%"/aaaaaaaa"] ∧
    ∀ rule ∈ cssPolicySample.rules.map (·.2), sanitizeSimple UrlEnv.dotted cssPolicySample rule c%"p" c%"style:background-image" c%"//e" = none := by
  refine ⟨?_, ?_, ?_⟩ <;> decide

end JH
