import Verif.Props.EngUrl
import Verif.Props.UrlIdem
import Verif.Spec.RoundTrip

/-! URLs that the parser's fast check gives back unchanged. -/
namespace JH
open Spec

theorem ascii_printable (E : UrlEnv) {v : Str} (ha : v.all isAscii = true) (hc : Clean E v) : (v.all fun c => decide (0x20 ≤ c.toNat) && decide (c.toNat ≤ 0x7e)) = true := by
  rw [List.all_eq_true]
  intro x hx
  have h1 := hc.noControl x hx
  have h2 := (isAscii_iff x).mp (List.all_eq_true.mp ha x hx)
  simp only [isUrlControl, Bool.or_eq_false_iff, decide_eq_false_iff_not] at h1
  simp only [Bool.and_eq_true, decide_eq_true_eq]
  omega

/-- A URL that the fast check keeps as it is. -/
theorem fast_keeps (E : UrlEnv) (rule : UrlRule) {v : Str} (ha : v.all isAscii = true) (hc : Clean E v) (hb : '\\' ∉ v) (hne : v ≠ []) (hf : rule.allowFragment = true)
    (h2 : startsWith c%"//" (normUrl v) = false) (h2' : startsWith c%"//" v = false) (hs : ∀ sc, getScheme E.U (normUrl v) = some sc → sc ∈ rule.schemes) :
    fastUrl E rule true v = some (some v) := by
  unfold fastUrl
  dsimp only
  rw [ha, if_neg (by simp), stripP_fix _ v hc.head hc.last, if_neg (by simpa using hne), ascii_printable E ha hc]
  have abs : ∀ w : Str, isValidScheme w = true → lowerA w = w → startsWith (w ++ c%"://") v = true → w ∈ rule.schemes := by
    intro w hv hl hst
    obtain ⟨t, ht⟩ := startsWith_iff.mp hst
    refine hs w ?_
    rw [ht, show w ++ c%"://" ++ t = w ++ (':' :: '/' :: '/' :: t) by simp, normUrl_append,
        normUrl_id w (fun x hx => (validScheme_char w hv x hx).2.2.2.2.2.1),
        show normUrl (':' :: '/' :: '/' :: t) = ':' :: normUrl ('/' :: '/' :: t) by rw [normUrl_eq, normUrl_eq]; rfl, getScheme_of_split E.U w _ hv, hl]
  by_cases c1 : (startsWith c%"https://" v && !v.contains ' ' && true) = true
  · rw [if_pos c1]
    simp only [Bool.and_eq_true] at c1
    rw [if_pos (by simpa using abs c%"https" (by decide) (by decide) c1.1.1)]
  rw [if_neg c1]
  by_cases c2 : (startsWith c%"http://" v && !v.contains ' ' && true) = true
  · rw [if_pos c2]
    simp only [Bool.and_eq_true] at c2
    rw [if_pos (by simpa using abs c%"http" (by decide) (by decide) c2.1.1)]
  rw [if_neg c2, if_neg (by simp)]
  by_cases c3 : (!v.contains ':') = true
  · rw [if_pos c3, if_neg (by simpa using hb), h2', hf, if_neg (show ¬ (false = true) by simp)]
    simp
  · rw [if_neg c3]
    have hnb : (normUrl v).contains '\\' = false := by
      rw [List.contains_eq_mem, decide_eq_false_iff_not, normUrl_eq, List.mem_filter]
      exact fun h => hb h.1
    have hnn : (normUrl v).isEmpty = false := by
      rw [List.isEmpty_eq_false_iff]
      intro e
      have : ':' ∈ normUrl v := by
        rw [normUrl_eq, List.mem_filter]
        exact ⟨by simpa using c3, by decide⟩
      rw [e] at this; cases this
    rw [hnb, hnn, if_neg (by simp), h2, hf, if_neg (show ¬ (false = true) by simp)]
    by_cases c4 : startsWith c%"#" (normUrl v) = true
    · rw [if_pos c4]; rfl
    rw [if_neg c4]
    cases hg : getScheme E.U (normUrl v) with
    | none => rfl
    | some sc =>
      dsimp only
      rw [if_neg (by simpa using hs sc hg), if_neg (by simp)]

/-- A plain link is kept. -/
theorem plain_keeps (E : UrlEnv) (rule : UrlRule) {v : Str} (hf : rule.allowFragment = true) (h : PlainLink rule.schemes v) : fastUrl E rule true v = some (some v) := by
  obtain ⟨hne, hch, hs, hn⟩ := h
  have hlo : ∀ c ∈ v, 0x21 ≤ c.toNat ∧ c.toNat ≤ 0x7e := fun c hc => by
    have := hch c hc
    exact ⟨this.1, this.2.1⟩
  have ha : v.all isAscii = true := List.all_eq_true.mpr fun c hc => (isAscii_iff c).mpr (by have := hlo c hc; omega)
  have hsp : ∀ c ∈ v, E.U.isSpace c = false := fun c hc => by
    rw [E.U.isSpace_ascii c (List.all_eq_true.mp ha c hc)]
    have := hlo c hc
    simp only [Bool.or_eq_false_iff, decide_eq_false_iff_not, Bool.and_eq_false_iff]
    refine ⟨⟨?_, Or.inr (by omega)⟩, Or.inr (by omega)⟩
    rintro rfl
    exact absurd this.1 (by decide)
  have hc : Clean E v := ⟨fun c hc => by
    have := hlo c hc
    simp only [isUrlControl, Bool.or_eq_false_iff, decide_eq_false_iff_not]; omega,
    fun y hy => hsp y (List.mem_of_mem_head? hy), fun y hy => hsp y (List.mem_of_mem_getLast? hy)⟩
  have hnorm : normUrl v = v := normUrl_id v fun c hc => by
    have := hlo c hc
    simp only [isUrlWs, Bool.or_eq_false_iff, decide_eq_false_iff_not]; omega
  have h2 : startsWith c%"//" v = false := by
    rw [Bool.eq_false_iff]
    intro h
    obtain ⟨t, rfl⟩ := startsWith_iff.mp h
    unfold networkPath at hn
    rw [clean_urlInput E _ hc] at hn
    simp [slash] at hn
  refine fast_keeps E rule ha hc (fun hx => (hch _ hx).2.2 rfl) hne hf (by rw [hnorm]; exact h2) h2 fun sc hg => hs sc ?_
  rw [hnorm] at hg
  obtain ⟨a, r, rfl, hv⟩ := getScheme_split E.U v sc hg
  rw [getScheme_of_split E.U a r hv] at hg
  unfold browserScheme
  rw [clean_urlInput E _ hc, (splitScheme_iff _ a r).mpr ⟨rfl, hv⟩, ← Option.some.inj hg]
  rfl

/-- What the fast check gives back: the stripped value, or the value with the default scheme. -/
theorem fast_out (E : UrlEnv) (rule : UrlRule) {w out : Str} (h : fastUrl E rule true w = some (some out)) :
    w.all isAscii = true ∧ (∀ c ∈ stripP E.U.isSpace w, 0x20 ≤ c.toNat ∧ c.toNat ≤ 0x7e) ∧
      (out = stripP E.U.isSpace w ∨ ∃ r0 x, rule.resolve = some r0 ∧ E.U.lower r0 ∈ rule.schemes ∧ out = E.U.lower r0 ++ c%":" ++ x ∧ startsWith c%"//" x = true ∧
        '\\' ∉ x ∧ (x = stripP E.U.isSpace w ∨ x = normUrl (stripP E.U.isSpace w))) := by
  unfold fastUrl at h
  rw [Option.ite_none_left_eq_some] at h
  refine ⟨by simpa using h.1, ?_⟩
  replace h := h.2
  dsimp only at h
  generalize stripP E.U.isSpace w = s at h
  cases hp : (s.all fun c => decide (0x20 ≤ c.toNat) && decide (c.toNat ≤ 0x7e)) with
  | false =>
    rw [hp] at h
    simp at h
  | true =>
    refine ⟨fun c hc => by simpa using List.all_eq_true.mp hp c hc, ?_⟩
    rw [hp] at h
    by_cases c0 : s.isEmpty = true
    · rw [if_pos c0] at h; cases h
    rw [if_neg c0] at h
    have one : ∀ (b : Bool), some (if b = true then some s else none) = some (some out) → out = s := by
      intro b hb
      cases b <;> simp at hb
      exact hb.symm
    by_cases c1 : (startsWith c%"https://" s && !s.contains ' ' && true) = true
    · rw [if_pos c1] at h; exact Or.inl (one _ h)
    rw [if_neg c1] at h
    by_cases c2 : (startsWith c%"http://" s && !s.contains ' ' && true) = true
    · rw [if_pos c2] at h; exact Or.inl (one _ h)
    rw [if_neg c2, if_neg (by simp)] at h
    have res : ∀ x : Str, startsWith c%"//" x = true → '\\' ∉ x → (x = s ∨ x = normUrl s) → (match rule.resolve with
        | none => some none
        | some r0 => if r0.isEmpty then some none else if !rule.schemes.contains (E.U.lower r0) then some none else some (some (E.U.lower r0 ++ c%":" ++ x))) =
          some (some out) → ∃ r0 x, rule.resolve = some r0 ∧ E.U.lower r0 ∈ rule.schemes ∧ out = E.U.lower r0 ++ c%":" ++ x ∧ startsWith c%"//" x = true ∧
        '\\' ∉ x ∧ (x = s ∨ x = normUrl s) := by
      intro x hx hb hs hm
      cases hr : rule.resolve with
      | none => rw [hr] at hm; cases hm
      | some r0 =>
        rw [hr] at hm
        dsimp only at hm
        by_cases d1 : r0.isEmpty = true
        · rw [if_pos d1] at hm; cases hm
        rw [if_neg d1] at hm
        by_cases d2 : (!rule.schemes.contains (E.U.lower r0)) = true
        · rw [if_pos d2] at hm; cases hm
        rw [if_neg d2] at hm
        cases hm
        exact ⟨r0, x, rfl, by simpa using d2, rfl, hx, hb, hs⟩
    by_cases c3 : (!s.contains ':') = true
    · rw [if_pos c3] at h
      by_cases c4 : s.contains '\\' = true
      · rw [if_pos c4] at h; cases h
      rw [if_neg c4] at h
      by_cases c5 : startsWith c%"#" s = true
      · rw [if_pos c5] at h; exact Or.inl (one _ h)
      rw [if_neg c5] at h
      by_cases c6 : startsWith c%"//" s = true
      · rw [if_pos c6] at h
        exact Or.inr (res s c6 (by simpa using c4) (Or.inl rfl) h)
      rw [if_neg c6] at h
      exact Or.inl (one true h)
    · rw [if_neg c3] at h
      by_cases c4 : ((normUrl s).isEmpty || (normUrl s).contains '\\') = true
      · rw [if_pos c4] at h; cases h
      rw [if_neg c4] at h
      by_cases c5 : startsWith c%"#" (normUrl s) = true
      · rw [if_pos c5] at h; exact Or.inl (one _ h)
      rw [if_neg c5] at h
      by_cases c6 : startsWith c%"//" (normUrl s) = true
      · rw [if_pos c6] at h
        refine Or.inr (res (normUrl s) c6 ?_ (Or.inr rfl) h)
        simp only [Bool.or_eq_true, not_or] at c4
        simpa using c4.2
      rw [if_neg c6] at h
      cases hg : getScheme E.U (normUrl s) with
      | none => rw [hg] at h; exact Or.inl (one true h)
      | some sc =>
        rw [hg] at h
        dsimp only at h
        by_cases c7 : (!rule.schemes.contains sc) = true
        · rw [if_pos c7] at h; cases h
        rw [if_neg c7, if_neg (by simp)] at h
        cases h
        exact Or.inl rfl

/-- What the fast check gives back, it gives back again. -/
theorem fast_idem (E : UrlEnv) (rule : UrlRule) {w out : Str} (hf : rule.allowFragment = true) (hres : ∀ r, rule.resolve = some r → SchemeName r)
    (h : fastUrl E rule true w = some (some out)) : fastUrl E rule true out = some (some out) ∧ out.all isAscii = true := by
  obtain ⟨h1, h2, h3⟩ := fast_out E rule h
  have hasc : (stripP E.U.isSpace w).all isAscii = true := List.all_eq_true.mpr fun c hc => List.all_eq_true.mp h1 c (stripP_sub _ _ _ hc)
  rcases h3 with h3 | ⟨r0, x, h3, h4, h5, h6, h7, h8⟩
  · rw [h3]
    refine ⟨?_, hasc⟩
    have e : fastUrl E rule true (stripP E.U.isSpace w) = fastUrl E rule true w := by
      unfold fastUrl
      rw [h1, hasc, stripP_stripP]
    rw [e, h, h3]
  · have hx : ∀ c ∈ x, 0x20 ≤ c.toNat ∧ c.toNat ≤ 0x7e := by
      intro c hc
      rcases h8 with rfl | rfl
      · exact h2 c hc
      · rw [normUrl_eq, List.mem_filter] at hc; exact h2 c hc.1
    have hv := (schemeName_iff r0).mp (hres r0 h3)
    have hlow : E.U.lower r0 = lowerA r0 := E.U.lower_ascii _ (List.all_eq_true.mpr fun x hx => (validScheme_char r0 hv x hx).2.2.2.2.2.2)
    rw [hlow] at h4 h5
    have hvl := lowerA_valid r0 hv
    have hvc := validScheme_char _ hvl
    have hll : lowerA (lowerA r0) = lowerA r0 := by
      have := E.U.lower_idem r0
      rw [hlow, E.U.lower_ascii _ (List.all_eq_true.mpr fun x hx => (hvc x hx).2.2.2.2.2.2)] at this
      exact this
    have hne : lowerA r0 ≠ [] := by intro e; rw [e] at hvl; simp [isValidScheme] at hvl
    have hlast : ∀ y, x.getLast? = some y → E.U.isSpace y = false := by
      intro y hy
      rcases h8 with rfl | rfl
      · exact stripP_last _ _ y hy
      · have hm := List.mem_of_mem_getLast? hy
        rw [normUrl_eq, List.mem_filter] at hm
        have h20 := h2 y hm.1
        rw [E.U.isSpace_ascii y ((isAscii_iff y).mpr (by omega))]
        have hw : isUrlWs y = false := by simpa using hm.2
        simp only [isUrlWs, Bool.or_eq_false_iff, decide_eq_false_iff_not] at hw
        simp only [Bool.or_eq_false_iff, decide_eq_false_iff_not, Bool.and_eq_false_iff]
        refine ⟨⟨?_, Or.inr (by omega)⟩, Or.inr (by omega)⟩
        rintro rfl
        exact hw.1 (by decide)
    have hxne : x ≠ [] := by rintro rfl; cases h6
    have ha : out.all isAscii = true := by
      rw [h5]
      refine List.all_eq_true.mpr fun c hc => ?_
      rw [List.mem_append, List.mem_append] at hc
      rcases hc with (hc | hc) | hc
      · exact (hvc c hc).2.2.2.2.2.2
      · simp at hc; rw [hc]; decide
      · exact (isAscii_iff c).mpr (by have := hx c hc; omega)
    have hc : Clean E out := by
      refine ⟨fun c hc => ?_, fun y hy => ?_, fun y hy => ?_⟩
      · rw [h5, List.mem_append, List.mem_append] at hc
        rcases hc with (hc | hc) | hc
        · exact ws_control c (hvc c hc).2.2.2.2.2.1
        · simp at hc; rw [hc]; decide
        · have := hx c hc
          simp only [isUrlControl, Bool.or_eq_false_iff, decide_eq_false_iff_not]; omega
      · rw [h5] at hy
        have hy : y ∈ lowerA r0 := by
          cases hl : lowerA r0 with
          | nil => exact absurd hl hne
          | cons a r => rw [hl] at hy; simp at hy; rw [← hy]; simp
        have := hvc y hy
        rw [E.U.isSpace_ascii y this.2.2.2.2.2.2]
        have hw := this.2.2.2.2.2.1
        simp only [isUrlWs, Bool.or_eq_false_iff, decide_eq_false_iff_not] at hw
        simp only [Bool.or_eq_false_iff, decide_eq_false_iff_not, Bool.and_eq_false_iff]
        refine ⟨⟨?_, Or.inr (by omega)⟩, Or.inr (by omega)⟩
        rintro rfl
        exact hw.1 (by decide)
      · rw [h5, List.getLast?_append, List.getLast?_eq_some_getLast hxne] at hy
        exact hlast y (by rw [List.getLast?_eq_some_getLast hxne]; exact hy)
    have hnorm : normUrl out = lowerA r0 ++ ':' :: normUrl x := by
      rw [h5, List.append_assoc, normUrl_append, normUrl_id (lowerA r0) (fun x hx => (hvc x hx).2.2.2.2.2.1), normUrl_append]
      rfl
    have noslash : ∀ z, startsWith c%"//" (lowerA r0 ++ z) = false := by
      intro z
      cases hl : lowerA r0 with
      | nil => exact absurd hl hne
      | cons a r =>
        have := (hvc a (by rw [hl]; simp)).2.1
        simp [startsWith, List.isPrefixOf, Ne.symm this]
    refine ⟨fast_keeps E rule ha hc ?_ ?_ hf ?_ ?_ ?_, ha⟩
    · rw [h5, List.mem_append, List.mem_append]
      rintro ((hc | hc) | hc)
      · exact (hvc _ hc).2.2.2.2.1 rfl
      · simp at hc
      · exact h7 hc
    · rw [h5]; simp
    · rw [hnorm]; exact noslash _
    · rw [h5, List.append_assoc]; exact noslash _
    · intro sc hg
      rw [hnorm, getScheme_of_split E.U _ _ hvl, hll] at hg
      rw [← Option.some.inj hg]; exact h4

theorem accept_fast (E : UrlEnv) (rule : UrlRule) (h : UrlHandling) (hp : h ≠ .proxy) {proxy : Option UrlProxy} {u : Str} (hres : ∀ r, rule.resolve = some r → SchemeName r)
    (hf : rule.allowFragment = true) (ha : u.all isAscii = true) (hs : stripP E.U.isSpace u = u) (hk : checkStripped E rule h true proxy u = some u) :
    fastUrl E rule true u = some (some u) := by
  obtain ⟨h1, h2, h3, -, v, h4, h5⟩ := checkStripped_accept E rule h true proxy u u (fun y hy => stripP_head E.U.isSpace u y (by rw [hs]; exact hy))
    (fun y hy => stripP_last E.U.isSpace u y (by rw [hs]; exact hy)) hk
  have hv : h = .allow → v = u := by
    intro e
    rw [e] at h5
    simpa [finishUrl] using h5
  have key : startsWith c%"//" (normUrl u) = false → (∀ sc, getScheme E.U (normUrl u) = some sc → sc ∈ rule.schemes) → fastUrl E rule true u = some (some u) := by
    intro k1 k2
    refine fast_keeps E rule ha h1 h2 h3 hf k1 ?_ k2
    rw [Bool.eq_false_iff]
    intro k3
    obtain ⟨t, rfl⟩ := startsWith_iff.mp k3
    rw [normUrl_append] at k1
    simp [startsWith, normUrl_eq, isUrlWs] at k1
  have hd : ∀ sc, getScheme E.U (normUrl u) = some sc → startsWith c%"//" (normUrl u) = false := by
    intro sc hg
    obtain ⟨a, r, e, hv⟩ := getScheme_split E.U _ sc hg
    rw [e]
    cases a with
    | nil => simp [isValidScheme] at hv
    | cons x a =>
      have := (validScheme_char _ hv x (by simp)).2.1
      simp [startsWith, List.isPrefixOf, Ne.symm this]
  cases h4 with
  | fragment _ g2 =>
    have e : ∃ r, normUrl u = '#' :: r := by
      cases u with
      | nil => simp at g2
      | cons c r =>
        have : c = '#' := by simpa using g2
        subst this
        exact ⟨_, clean_norm_cons E _ h1 _ _ rfl⟩
    obtain ⟨r, e⟩ := e
    refine key (by rw [e]; rfl) fun sc hg => ?_
    obtain ⟨a, r', e', hv⟩ := getScheme_split E.U _ sc hg
    rw [e] at e'
    cases a with
    | nil => simp [isValidScheme] at hv
    | cons x a =>
      simp at e'
      exact absurd e'.1.symm (validScheme_char _ hv x (by simp)).2.2.2.1
  | resolved r0 g1 g2 g3 g4 g5 =>
    exfalso
    cases h with
    | proxy => exact hp rfl
    | strip => simp [finishUrl] at h5
    | allow =>
      have e := hv rfl
      have hvr := (schemeName_iff r0).mp (hres r0 g1)
      have hlow : E.U.lower r0 = lowerA r0 := E.U.lower_ascii _ (List.all_eq_true.mpr fun x hx => (validScheme_char r0 hvr x hx).2.2.2.2.2.2)
      have hvl := lowerA_valid r0 hvr
      rw [hlow] at e
      have : normUrl u = lowerA r0 ++ ':' :: normUrl (normUrl u) := by
        conv => lhs; rw [← e]
        rw [List.append_assoc, normUrl_append, normUrl_id (lowerA r0) (fun x hx => (validScheme_char _ hvl x hx).2.2.2.2.2.1), normUrl_append]
        rfl
      rw [hd (lowerA (lowerA r0)) (by rw [this]; exact getScheme_of_split E.U _ _ hvl)] at g4
      cases g4
  | bare sc g1 g2 _ _ => exact key (hd sc g1) fun sc' hg => by rw [g1] at hg; cases hg; exact g2
  | absolute sc g1 g2 _ => exact key (hd sc g1) fun sc' hg => by rw [g1] at hg; cases hg; exact g2
  | relative g1 _ g3 _ => exact key g3 fun sc hg => by rw [g1] at hg; cases hg

end JH
