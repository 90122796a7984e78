import Verif.Spec.Builder
import Verif.Props.Serialize

/-! C95 and C96: building trees with `element(...)`. -/
namespace JH
open Spec

/-! ### Names -/

theorem dropNL_core {s : Str} (h : '\n' ∉ s) : dropNL s = s := by
  unfold dropNL
  split
  · rename_i r hr
    exact absurd (by have := congrArg List.reverse hr; rw [List.reverse_reverse] at this; rw [this]; simp) h
  · rfl

theorem dropNL_snoc (s : Str) : dropNL (s ++ ['\n']) = s := by
  unfold dropNL
  simp

theorem tagNameChar_iff (c : Char) : tagNameChar c = true ↔ c ∉ ['\t', '\n', '\x0c', '\r', ' ', '/', '>'] := by
  simp only [tagNameChar, Bool.not_eq_true', Bool.or_eq_false_iff, decide_eq_false_iff_not, List.mem_cons, List.not_mem_nil, or_false, not_or]
  grind

theorem attrNameChar_spec (c : Char) : attrNameChar c = true ↔ c ∉ nameBreaks := by
  simp only [attrNameChar, Bool.and_eq_true, tagNameChar_iff, nameBreaks]
  grind

/-- What `_validate_serializable_attr_name` accepts. -/
theorem attrName_iff (n : Str) : AttrName n ↔ validAttrName n = true := by
  constructor
  · rintro ⟨core, h | h, h0, h1⟩
    all_goals
      have hnl : '\n' ∉ core := fun k => h1 _ k (by simp [nameBreaks])
      have hd : dropNL n = core := by
        rw [h]
        first | exact dropNL_core hnl | exact dropNL_snoc core
      unfold validAttrName
      rw [hd, Bool.and_eq_true]
      refine ⟨by cases core with | nil => exact absurd rfl h0 | cons a b => rfl, List.all_eq_true.2 fun c hc => (attrNameChar_spec c).2 (h1 c hc)⟩
  · intro h
    simp only [validAttrName, Bool.and_eq_true, Bool.not_eq_true', List.isEmpty_eq_false_iff, List.all_eq_true] at h
    exact ⟨dropNL n, dropNL_cases n, h.1, fun c hc => (attrNameChar_spec c).1 (h.2 c hc)⟩

theorem attrName_noEq {n : Str} (h : AttrName n) : '=' ∉ n := by
  obtain ⟨core, h | h, -, h1⟩ := h
  · rw [h]; exact fun k => h1 _ k (by simp [nameBreaks])
  · rw [h]
    intro k
    rcases List.mem_append.1 k with k | k
    · exact h1 _ k (by simp [nameBreaks])
    · simp at k

theorem alpha_iff (c : Char) : isAsciiAlpha c = true ↔ (('a' ≤ c ∧ c ≤ 'z') ∨ ('A' ≤ c ∧ c ≤ 'Z')) := by
  simp only [isAsciiAlpha, isLowerC, isUpperC, Bool.or_eq_true, Bool.and_eq_true, decide_eq_true_eq]
  exact Iff.rfl

theorem elemName_iff (U : Uni) (n : Str) : ElemName U n ↔ validTagName n = true ∧ '[' ∉ n ∧ ∀ c ∈ n, U.isSpace c = false := by
  have hsp : U.isSpace '\n' = true := by rw [U.isSpace_ascii _ (by decide)]; decide
  constructor
  · rintro ⟨c, cs, rfl, h1, h2, h3⟩
    have hnl : '\n' ∉ c :: cs := fun k => by
      have := h3 _ k
      rw [hsp] at this
      cases this
    refine ⟨?_, ?_, h3⟩
    · unfold validTagName
      rw [dropNL_core hnl]
      simp only [Bool.and_eq_true, List.all_eq_true]
      exact ⟨(alpha_iff c).2 h1, fun x hx => (tagNameChar_iff x).2 fun k => h2 x hx (by grind)⟩
    · intro k
      rcases List.mem_cons.1 k with k | k
      · rw [← k] at h1
        revert h1
        decide
      · exact h2 _ k (by simp)
  · rintro ⟨h1, h2, h3⟩
    have hnl : '\n' ∉ n := fun k => by
      have := h3 _ k
      rw [hsp] at this
      cases this
    unfold validTagName at h1
    rw [dropNL_core hnl] at h1
    cases n with
    | nil => cases h1
    | cons c cs =>
      simp only [Bool.and_eq_true, List.all_eq_true] at h1
      refine ⟨c, cs, rfl, (alpha_iff c).1 h1.1, fun x hx k => ?_, h3⟩
      have := (tagNameChar_iff x).1 (h1.2 x hx)
      have hb : x ≠ '[' := fun e => h2 (e ▸ List.mem_cons_of_mem c hx)
      have hk : x ∈ ['\t', '\n', '\x0c', '\r', ' ', '/', '>'] ++ ['['] := k
      rcases List.mem_append.1 hk with hk | hk
      · exact this hk
      · exact hb (List.mem_singleton.1 hk)

/-! ### C95: the shorthand -/

theorem takeWhile_to {p : Char → Bool} {a : Str} (h : ∀ c ∈ a, p c = true) {d : Char} (hd : p d = false) (r : Str) :
    (a ++ d :: r).takeWhile p = a ∧ (a ++ d :: r).dropWhile p = d :: r := by
  induction a with
  | nil => simp [hd]
  | cons x a ih =>
    have hx := h x (by simp)
    have := ih fun c hc => h c (by simp [hc])
    simp [hx, this.1, this.2]

theorem takeWhile_whole {p : Char → Bool} {a : Str} (h : ∀ c ∈ a, p c = true) : a.takeWhile p = a ∧ a.dropWhile p = [] := by
  induction a with
  | nil => exact ⟨rfl, rfl⟩
  | cons x a ih =>
    have hx := h x (by simp)
    have := ih fun c hc => h c (by simp [hc])
    simp [hx, this.1, this.2]

theorem takeWhile_mem {p : Char → Bool} {s : Str} : ∀ c ∈ s.takeWhile p, p c = true := by
  induction s with
  | nil => intro c hc; cases hc
  | cons x s ih =>
    intro c hc
    rw [List.takeWhile_cons] at hc
    split at hc
    · rename_i hx
      rcases List.mem_cons.1 hc with rfl | hc
      · exact hx
      · exact ih c hc
    · cases hc

theorem dropWhile_cut {p : Char → Bool} {s r : Str} {d : Char} (h : s.dropWhile p = d :: r) : p d = false ∧ s = s.takeWhile p ++ d :: r := by
  refine ⟨?_, by rw [← h, List.takeWhile_append_dropWhile]⟩
  induction s with
  | nil => cases h
  | cons x s ih =>
    rw [List.dropWhile_cons] at h
    split at h
    · exact ih h
    · rename_i hx
      cases h
      exact Bool.eq_false_iff.2 hx

theorem shortAttr_iff (s r : Str) (a : Str × Option Str) :
    shortAttr s = some (a, r) ↔ ∃ part, Written a ('[' :: part) ∧ s = part ++ r ∧ AttrName a.1 ∧ ']' ∉ a.1 := by
  constructor
  · intro h
    unfold shortAttr at h
    dsimp only at h
    split at h
    · cases h
    · rename_i d r0 hd
      obtain ⟨hd1, hd2⟩ := dropWhile_cut hd
      have hin : ∀ c ∈ s.takeWhile (fun c => !(decide (c = '=') || decide (c = ']'))), c ≠ '=' ∧ c ≠ ']' := fun c hc => by
        have := takeWhile_mem c hc
        simpa using this
      generalize s.takeWhile (fun c => !(decide (c = '=') || decide (c = ']'))) = name at h hd2 hin
      split at h
      · cases h
      rename_i hv
      have hv' : AttrName name := (attrName_iff name).2 (by simpa using hv)
      have hn : ']' ∉ name := fun k => (hin _ k).2 rfl
      split at h
      · rename_i hb
        cases h
        refine ⟨name ++ c%"]", Written.bare name, ?_, hv', hn⟩
        rw [hd2, hb]
        simp
      rename_i hb
      have hde : d = '=' := by
        have : d = '=' ∨ d = ']' := by grind
        exact this.resolve_right hb
      split at h
      · cases h
      rename_i q r1
      split at h
      · rename_i hq
        have hq' : q = '"' ∨ q = '\'' := by simpa using hq
        split at h
        · cases h
        rename_i hbs
        split at h
        · rename_i x r2 hd3
          obtain ⟨k1, k2⟩ := dropWhile_cut hd3
          have hx : x = q := by simpa using k1
          have hqv : q ∉ r1.takeWhile (fun c => decide (c ≠ q)) := fun k => by
            have := takeWhile_mem _ k
            simp at this
          generalize r1.takeWhile (fun c => decide (c ≠ q)) = v at h hbs k2 hqv
          cases h
          refine ⟨name ++ c%"=" ++ (q :: v) ++ (q :: c%"]"), ?_, ?_, hv', hn⟩
          · exact Written.quoted name v q hq' hqv (by simpa using hbs)
          · rw [hd2, hde, k2, hx]
            simp
        · cases h
      · rename_i hq
        split at h
        · cases h
        rename_i hbs
        split at h
        · rename_i x r2 hd3
          obtain ⟨k1, k2⟩ := dropWhile_cut hd3
          have hx : x = ']' := by simpa using k1
          have hqv : ']' ∉ (q :: r1).takeWhile (fun c => decide (c ≠ ']')) := fun k => by
            have := takeWhile_mem _ k
            simp at this
          have hhead : ∀ y, ((q :: r1).takeWhile (fun c => decide (c ≠ ']'))).head? = some y → y = q := by
            intro y hy
            rw [List.takeWhile_cons] at hy
            split at hy
            · simpa using hy.symm
            · cases hy
          generalize (q :: r1).takeWhile (fun c => decide (c ≠ ']')) = v at h hbs k2 hqv hhead
          cases h
          refine ⟨name ++ c%"=" ++ v ++ c%"]", ?_, ?_, hv', hn⟩
          · refine Written.plain name v (by simpa using hbs) hqv ?_ ?_
            · intro k
              exact hq (by simp [← hhead _ k])
            · intro k
              exact hq (by simp [← hhead _ k])
          · rw [hd2, hde, k2, hx]
            simp
        · cases h
  · rintro ⟨part, hw, rfl, hv, hn⟩
    have hv' := (attrName_iff _).1 hv
    have he := attrName_noEq hv
    have hnm : ∀ c ∈ a.1, (!(decide (c = '=') || decide (c = ']'))) = true := fun c hc => by
      simp only [Bool.not_eq_true', Bool.or_eq_false_iff, decide_eq_false_iff_not]
      exact ⟨fun e => he (e ▸ hc), fun e => hn (e ▸ hc)⟩
    generalize hw' : '[' :: part = w at hw
    unfold shortAttr
    dsimp only
    cases hw with
    | bare name =>
      have : part = name ++ [']'] := by simpa using hw'
      subst this
      dsimp only at hv' hnm
      have := takeWhile_to hnm (d := ']') (by decide) r
      simp only [List.append_assoc, List.singleton_append, this.1, this.2, hv']
      simp
    | plain name v v1 v2 v3 v4 =>
      have : part = name ++ '=' :: (v ++ [']']) := by simpa using hw'
      subst this
      dsimp only at hv' hnm
      have := takeWhile_to hnm (d := '=') (by decide) (v ++ [']'] ++ r)
      simp only [List.append_assoc, List.cons_append, List.nil_append] at this ⊢
      simp only [this.1, this.2, hv', Bool.not_true, Bool.false_eq_true, if_false]
      rw [if_neg (by decide)]
      obtain ⟨q, r1, hqr, hq⟩ : ∃ q r1, v ++ ']' :: r = q :: r1 ∧ q ≠ '"' ∧ q ≠ '\'' := by
        cases v with
        | nil => exact ⟨']', r, rfl, by decide, by decide⟩
        | cons x v => exact ⟨x, v ++ ']' :: r, rfl, fun e => v3 (by simp [e]), fun e => v4 (by simp [e])⟩
      have h2 := takeWhile_to (p := fun c => decide (c ≠ ']')) (a := v) (fun c hc => decide_eq_true fun e => v2 (e ▸ hc)) (d := ']') (by decide) r
      rw [hqr] at h2 ⊢
      dsimp only
      rw [if_neg (by simp [hq.1, hq.2]), h2.1, h2.2, if_neg (by simpa using v1)]
    | quoted name v q q1 q2 q3 =>
      have : part = name ++ '=' :: (q :: (v ++ q :: [']'])) := by simpa using hw'
      subst this
      dsimp only at hv' hnm
      have := takeWhile_to hnm (d := '=') (by decide) (q :: (v ++ q :: ']' :: r))
      simp only [List.append_assoc, List.cons_append, List.nil_append, this.1, this.2, hv', Bool.not_true, Bool.false_eq_true, if_false]
      rw [if_neg (by decide), if_pos (by simpa using q1)]
      have h2 := takeWhile_to (p := fun c => decide (c ≠ q)) (a := v) (fun c hc => decide_eq_true fun e => q2 (e ▸ hc)) (d := q) (by simp) (']' :: r)
      rw [h2.1, h2.2, if_neg (by simpa using q3)]
      rfl

theorem written_open {a : Str × Option Str} {w : Str} (h : Written a w) : ∃ part, w = '[' :: part := by
  cases h
  all_goals simp

theorem shortAttrsF_iff (n : Nat) : ∀ (s : Str) (acc l : List (Str × Option Str)), s.length ≤ n →
    (shortAttrsF n s acc = some l ↔ ∃ attrs parts, l = acc ++ attrs ∧ List.Forall₂ Written attrs parts ∧ s = parts.flatten ∧
      (∀ a ∈ attrs, AttrName a.1 ∧ ']' ∉ a.1) ∧ (attrs.map (·.1)).Nodup ∧ ∀ a ∈ attrs, ∀ b ∈ acc, b.1 ≠ a.1) := by
  have hnil : ∀ n acc l, shortAttrsF n [] acc = some l ↔ l = acc := fun n acc l => by
    cases n <;> (unfold shortAttrsF; simp [eq_comm])
  have hempty : ∀ {acc l : List (Str × Option Str)}, (∃ attrs parts, l = acc ++ attrs ∧ List.Forall₂ Written attrs parts ∧ ([] : Str) = parts.flatten ∧
      (∀ a ∈ attrs, AttrName a.1 ∧ ']' ∉ a.1) ∧ (attrs.map (·.1)).Nodup ∧ ∀ a ∈ attrs, ∀ b ∈ acc, b.1 ≠ a.1) ↔ l = acc := by
    intro acc l
    constructor
    · rintro ⟨attrs, parts, rfl, hf, he, -⟩
      cases hf with
      | nil => simp
      | cons hw _ =>
        obtain ⟨p, rfl⟩ := written_open hw
        simp at he
    · rintro rfl
      exact ⟨[], [], by simp, .nil, rfl, by simp, by simp, by simp⟩
  induction n with
  | zero =>
    intro s acc l hs
    cases s with
    | nil => rw [hnil, hempty]
    | cons c s => simp at hs
  | succ n ih =>
    intro s acc l hs
    cases s with
    | nil => rw [hnil, hempty]
    | cons c s =>
      have hlen : s.length ≤ n := by simpa using hs
      unfold shortAttrsF
      by_cases hc : c = '['
      · rw [if_neg (by simpa using hc), hc]
        constructor
        · intro h
          split at h
          · cases h
          rename_i a r' ha
          obtain ⟨part, hw, hp, hn1, hn2⟩ := (shortAttr_iff _ _ _).1 ha
          split at h
          · cases h
          rename_i hacc
          have hlen' : r'.length ≤ n := by
            have := congrArg List.length hp
            simp at this
            omega
          obtain ⟨attrs, parts, h1, h2, h3, h4, h5, h6⟩ := (ih r' _ _ hlen').1 h
          refine ⟨a :: attrs, ('[' :: part) :: parts, by rw [h1]; simp, .cons hw h2, ?_, ?_, ?_, ?_⟩
          · rw [hp, h3]; simp
          · intro x hx
            rcases List.mem_cons.1 hx with rfl | hx
            · exact ⟨hn1, hn2⟩
            · exact h4 x hx
          · rw [List.map_cons, List.nodup_cons]
            refine ⟨fun k => ?_, h5⟩
            obtain ⟨x, hx, hxe⟩ := List.mem_map.1 k
            exact h6 x hx a (by simp) hxe.symm
          · intro x hx b hb
            rcases List.mem_cons.1 hx with rfl | hx
            · intro e
              exact hacc (List.any_eq_true.2 ⟨b, hb, by simpa using e⟩)
            · exact h6 x hx b (by simp [hb])
        · rintro ⟨attrs, parts, h1, h2, h3, h4, h5, h6⟩
          cases h2 with
          | nil => simp at h3
          | @cons a w attrs parts hw h2 =>
            obtain ⟨part, rfl⟩ := written_open hw
            have h3' : s = part ++ parts.flatten := by simpa using h3
            have ha : shortAttr s = some (a, parts.flatten) := (shortAttr_iff _ _ _).2 ⟨part, hw, h3', h4 a (by simp)⟩
            rw [ha]
            dsimp only
            rw [if_neg fun k => ?_]
            · have hlen' : parts.flatten.length ≤ n := by
                have := congrArg List.length h3'
                simp only [List.length_append] at this
                omega
              refine (ih _ _ _ hlen').2 ⟨attrs, parts, by rw [h1]; simp, h2, rfl, fun x hx => h4 x (by simp [hx]), ?_, ?_⟩
              · rw [List.map_cons, List.nodup_cons] at h5
                exact h5.2
              · intro x hx b hb
                rcases List.mem_append.1 hb with hb | hb
                · exact h6 x (by simp [hx]) b hb
                · rw [List.map_cons, List.nodup_cons] at h5
                  intro e
                  rw [List.mem_singleton.1 hb] at e
                  exact h5.1 (List.mem_map.2 ⟨x, hx, e.symm⟩)
            · obtain ⟨b, hb, hbe⟩ := List.any_eq_true.1 k
              exact h6 a (by simp) b hb (by simpa using hbe)
      · rw [if_pos (by simpa using hc)]
        constructor
        · intro h; cases h
        · rintro ⟨attrs, parts, h1, h2, h3, h4, h5, h6⟩
          cases h2 with
          | nil => simp at h3
          | cons hw h2 =>
            obtain ⟨part, rfl⟩ := written_open hw
            simp at h3
            exact absurd h3.1 hc

theorem special_invalid {t : Str} (h : t ∈ specialNames) : validTagName t = false := by
  simp only [specialNames, List.mem_cons, List.not_mem_nil, or_false] at h
  rcases h with rfl | rfl | rfl | rfl | rfl <;> decide

/-- The first argument of `element(...)` is accepted if and only if it is an element name followed by attributes in brackets; and then it stands for
exactly these. -/
theorem C95_shorthand (U : Uni) (text tag : Str) (attrs : List (Str × Option Str)) :
    (parseElementName U text = some (tag, attrs) ∧ tag ∉ specialNames) ↔ Shorthand U text tag attrs := by
  constructor
  · rintro ⟨h, hsp⟩
    unfold parseElementName at h
    dsimp only at h
    split at h
    · cases h
    rename_i hc
    obtain ⟨as, has, hh⟩ := Option.map_eq_some_iff.1 h
    obtain ⟨attrs', parts, h1, h2, h3, h4, h5, h6⟩ := (shortAttrsF_iff _ _ _ _ (Nat.le_refl _)).1 has
    have htw : ∀ c ∈ text.takeWhile (fun c => decide (c ≠ '[')), c ≠ '[' := fun c hc => by
      have := takeWhile_mem c hc
      simpa using this
    have htd : text = text.takeWhile (fun c => decide (c ≠ '[')) ++ text.dropWhile (fun c => decide (c ≠ '[')) := by
      rw [List.takeWhile_append_dropWhile]
    rw [h3] at htd
    generalize text.takeWhile (fun c => decide (c ≠ '[')) = t at hc hh htw htd
    simp only [List.nil_append] at h1
    cases hh
    subst h1
    refine ⟨⟨parts, h2, htd⟩, (elemName_iff U _).2 ⟨?_, fun k => htw _ k rfl, ?_⟩, h4, h5⟩
    · have hnot : specialNames.contains tag = false := by
        cases hb : specialNames.contains tag with
        | false => rfl
        | true => exact absurd (by simpa using hb) hsp
      simp only [hnot, Bool.false_or, Bool.or_eq_true, Bool.not_eq_true', not_or, Bool.not_eq_false] at hc
      exact hc.2
    · simp only [Bool.or_eq_true, not_or] at hc
      intro c hcm
      cases hb : U.isSpace c with
      | false => rfl
      | true => exact absurd (List.any_eq_true.2 ⟨c, hcm, hb⟩) hc.1.2
  · rintro ⟨⟨parts, h2, rfl⟩, htag, h4, h5⟩
    obtain ⟨hv, hb, hs⟩ := (elemName_iff U tag).1 htag
    have hsp : tag ∉ specialNames := fun k => by rw [special_invalid k] at hv; cases hv
    refine ⟨?_, hsp⟩
    have hsplit : (tag ++ parts.flatten).takeWhile (fun c => decide (c ≠ '[')) = tag ∧ (tag ++ parts.flatten).dropWhile (fun c => decide (c ≠ '[')) = parts.flatten := by
      have hall : ∀ c ∈ tag, (fun c => decide (c ≠ '[')) c = true := fun c hc => decide_eq_true fun e => hb (e ▸ hc)
      cases h2 with
      | nil =>
        simp only [List.flatten_nil, List.append_nil]
        exact takeWhile_whole hall
      | cons hw h2 =>
        obtain ⟨part, rfl⟩ := written_open hw
        rw [List.flatten_cons, List.cons_append]
        exact takeWhile_to hall (by decide) _
    unfold parseElementName
    dsimp only
    rw [hsplit.1, hsplit.2, if_neg ?_]
    · rw [(shortAttrsF_iff _ _ _ attrs (Nat.le_refl _)).2 ⟨attrs, parts, by simp, h2, rfl, h4, h5, by simp⟩]
      rfl
    · simp only [Bool.or_eq_true, not_or]
      refine ⟨⟨?_, ?_⟩, ?_⟩
      · obtain ⟨c, cs, rfl, -⟩ := htag
        simp
      · intro k
        obtain ⟨c, hc, hce⟩ := List.any_eq_true.1 k
        rw [hs c hc] at hce
        cases hce
      · rw [hv]; simp

/-- Two readings of one text cannot differ. -/
theorem C95_unambiguous (U : Uni) (text tag tag' : Str) (attrs attrs' : List (Str × Option Str)) (h : Shorthand U text tag attrs)
    (h' : Shorthand U text tag' attrs') : tag = tag' ∧ attrs = attrs' := by
  have h1 := ((C95_shorthand U _ _ _).2 h).1
  have h2 := ((C95_shorthand U _ _ _).2 h').1
  rw [h1] at h2
  cases h2
  exact ⟨rfl, rfl⟩

/-! ### C96: the nodes -/

theorem laidOutL_append (a b : List Child) : laidOutL (a ++ b) = match laidOutL a, laidOutL b with
    | some x, some y => some (x ++ y)
    | _, _ => none := by
  induction a with
  | nil => simp only [List.nil_append, laidOutL]; cases laidOutL b <;> rfl
  | cons c a ih =>
    simp only [List.cons_append, laidOutL, ih]
    cases laidOut c <;> cases laidOutL a <;> cases laidOutL b <;> simp

theorem sizeL_appendC (a b : List Child) : Child.sizeL (a ++ b) = Child.sizeL a + Child.sizeL b := by
  induction a with
  | nil => simp [Child.sizeL]
  | cons c a ih => simp only [List.cons_append, Child.sizeL, ih]; omega

theorem size_posC (c : Child) : 1 ≤ c.size := by
  cases c <;> simp [Child.size]

theorem flattenF_spec (n : Nat) : ∀ (l : List Child) (out : List Node), Child.sizeL l ≤ n →
    flattenF n l out = match laidOutL l with | some k => .ok (out ++ k) | none => .error := by
  induction n with
  | zero =>
    intro l out h
    cases l with
    | nil => simp [flattenF, laidOutL]
    | cons c l =>
      have := size_posC c
      simp only [Child.sizeL] at h
      omega
  | succ n ih =>
    intro l out h
    cases l with
    | nil => simp [flattenF, laidOutL]
    | cons c l =>
      have hp := size_posC c
      simp only [Child.sizeL] at h
      cases c with
      | none =>
        rw [flattenF, ih l out (by omega)]
        simp only [laidOutL, laidOut]
        cases laidOutL l <;> simp
      | bool b =>
        cases b with
        | true => simp [flattenF, laidOutL, laidOut]
        | false =>
          simp only [flattenF, Bool.false_eq_true, if_false]
          rw [ih l out (by omega)]
          simp only [laidOutL, laidOut]
          cases laidOutL l <;> simp
      | str s =>
        rw [flattenF, ih l _ (by omega)]
        simp only [laidOutL, laidOut]
        cases laidOutL l <;> simp
      | node x =>
        rw [flattenF, ih l _ (by omega)]
        simp only [laidOutL, laidOut]
        cases laidOutL l <;> simp
      | iter k =>
        have hk : Child.sizeL (k ++ l) ≤ n := by
          rw [sizeL_appendC]
          simp only [Child.size] at h
          omega
        rw [flattenF, ih _ _ hk, laidOutL_append]
        simp only [laidOutL, laidOut]
        cases laidOutL k <;> cases laidOutL l <;> rfl
      | bad => simp [flattenF, laidOutL, laidOut]

/-- Lists of children, however nested, are laid out flat, in order. -/
theorem C96_children (l : List Child) : flattenChildren l = match laidOutL l with | some k => .ok k | none => .error := by
  rw [flattenChildren, flattenF_spec _ _ _ (Nat.le_refl _)]
  cases laidOutL l <;> simp

theorem normNs_iff (U : Uni) (given : Option Str) (ns : Str) : normNs U given = some ns ↔ NsIs U given ns := by
  cases given with
  | none => simp [normNs, NsIs, eq_comm]
  | some g =>
    simp only [normNs, NsIs, reduceCtorEq, false_and, false_or, Option.some.injEq, exists_eq_left']
    by_cases h : U.lower g = c%"mathml"
    · simp only [h, if_true]
      constructor
      · intro k
        left
        refine ⟨trivial, ?_⟩
        have : some c%"math" = some ns := by simpa using k
        exact (Option.some.inj this).symm
      · rintro (⟨-, rfl⟩ | ⟨rfl, k⟩)
        · simp
        · exact absurd k (by decide)
    · simp only [h, if_false, false_and, false_or]
      constructor
      · intro k
        split at k
        · rename_i hm
          cases k
          exact ⟨rfl, by simpa using hm⟩
        · cases k
      · rintro ⟨rfl, k⟩
        rw [if_pos (by simpa using k)]

theorem buildElement_eq (U : Uni) (name : Str) (attrs : AttrsArg) (children : List Child) (ns : Option Str) :
    buildElement U name attrs children ns = match normNs U ns with
      | none => .error
      | some ns =>
        match parseElementName U name with
        | none => .error
        | some (tag, short) =>
          if specialNames.contains tag then .error
          else
            match normAttrsArg (givenAttrs attrs) with
            | none => .error
            | some given =>
              if short.any fun a => given.any fun b => a.1 = b.1 then .error
              else
                match flattenChildren (givenKids attrs children) with
                | .ok l => .ok (if tag = c%"template" && ns = c%"html" then .elem tag (some ns) (short ++ given) [] true l else .elem tag (some ns) (short ++ given) l false [])
                | .unclosed => .unclosed
                | .error => .error := by
  cases attrs <;> rfl

/-- `element(...)` either returns a node or raises. -/
theorem C96_total (U : Uni) (name : Str) (attrs : AttrsArg) (children : List Child) (ns : Option Str) :
    buildElement U name attrs children ns ≠ .unclosed := by
  rw [buildElement_eq, C96_children]
  repeat' split
  all_goals first
    | (intro h; cases h; done)
    | (rename_i hf; split at hf <;> cases hf)

/-- `element(...)` returns a node if and only if the namespace is known, the first argument is a name with attributes, the names of the attributes are
well formed and distinct, and the children are children; and then the node has this name, these attributes and these children: in a `template` of HTML
they are its content. -/
theorem C96_element (U : Uni) (name : Str) (attrs : AttrsArg) (children : List Child) (ns : Option Str) (node : Node) :
    buildElement U name attrs children ns = .ok node ↔
      ∃ space tag short kids, NsIs U ns space ∧ Shorthand U name tag short ∧ (∀ a ∈ givenAttrs attrs, AttrName a.1) ∧
        (∀ a ∈ short, ∀ b ∈ givenAttrs attrs, a.1 ≠ b.1) ∧ laidOutL (givenKids attrs children) = some kids ∧
        ((tag = c%"template" ∧ space = c%"html" ∧ node = .elem tag (some space) (short ++ givenAttrs attrs) [] true kids) ∨
          (¬(tag = c%"template" ∧ space = c%"html") ∧ node = .elem tag (some space) (short ++ givenAttrs attrs) kids false [])) := by
  rw [buildElement_eq]
  constructor
  · intro h
    split at h
    · cases h
    rename_i space hns
    split at h
    · cases h
    rename_i tag short hp
    split at h
    · cases h
    rename_i hsp
    have hsh := (C95_shorthand U name tag short).1 ⟨hp, by simpa using hsp⟩
    split at h
    · cases h
    rename_i given hg
    unfold normAttrsArg at hg
    split at hg
    · rename_i hall
      cases hg
      split at h
      · cases h
      rename_i hdup
      split at h
      · rename_i l hl
        rw [C96_children] at hl
        cases hlv : laidOutL (givenKids attrs children) with
        | none => rw [hlv] at hl; cases hl
        | some kids =>
          rw [hlv] at hl
          cases hl
          refine ⟨space, tag, short, l, (normNs_iff U ns space).1 hns, hsh, fun a ha => (attrName_iff a.1).2 (List.all_eq_true.1 hall a ha), ?_, rfl, ?_⟩
          · intro a ha b hb e
            exact hdup (List.any_eq_true.2 ⟨a, ha, List.any_eq_true.2 ⟨b, hb, by simpa using e⟩⟩)
          · cases h
            by_cases ht : tag = c%"template" ∧ space = c%"html"
            · left
              refine ⟨ht.1, ht.2, ?_⟩
              rw [if_pos (by simp [ht.1, ht.2])]
            · right
              refine ⟨ht, ?_⟩
              rw [if_neg (by simpa using ht)]
      · cases h
      · cases h
    · cases hg
  · rintro ⟨space, tag, short, kids, hns, hsh, hall, hdis, hk, hnode⟩
    obtain ⟨hp, hsp⟩ := (C95_shorthand U name tag short).2 hsh
    rw [(normNs_iff U ns space).2 hns, hp]
    dsimp only
    have hna : normAttrsArg (givenAttrs attrs) = some (givenAttrs attrs) := by
      unfold normAttrsArg
      rw [if_pos (List.all_eq_true.2 fun a ha => (attrName_iff a.1).1 (hall a ha))]
    rw [if_neg (by simpa using hsp), hna]
    dsimp only
    rw [if_neg fun k => ?_, C96_children, hk]
    · dsimp only
      rcases hnode with ⟨h1, h2, h3⟩ | ⟨h1, h3⟩
      · rw [if_pos (by simp [h1, h2]), h3]
      · rw [if_neg (by simpa using h1), h3]
    · obtain ⟨a, ha, k⟩ := List.any_eq_true.1 k
      obtain ⟨b, hb, k⟩ := List.any_eq_true.1 k
      exact hdis a ha b hb (by simpa using k)

theorem markupL_ok {U : Uni} {ctx : Option Str} {l : List Node} (h : ∀ k ∈ l, ∀ c, ∃ s, markup U c k = some s) : ∃ s, markupL U ctx l = some s := by
  induction l with
  | nil => exact ⟨[], by simp [markupL]⟩
  | cons x l ih =>
    obtain ⟨a, ha⟩ := h x (by simp) ctx
    obtain ⟨b, hb⟩ := ih fun k hk => h k (by simp [hk])
    exact ⟨a ++ b, by simp [markupL, ha, hb]⟩

theorem startTag_ok {U : Uni} {o : TagOpts} {tag : Str} {attrs : List (Str × Option Str)} (h : validTagName tag = true)
    (ha : ∀ a ∈ attrs, validAttrName a.1 = true) : ∃ s, serializeStartTag U o tag attrs = some s := by
  unfold serializeStartTag
  rw [if_neg (by simp [h]), if_neg (by simpa using ha)]
  exact ⟨_, rfl⟩

/-- No two attributes of what `element(...)` returns have the same name. -/
theorem C96_distinct (U : Uni) (name : Str) (attrs : AttrsArg) (children : List Child) (ns : Option Str) (tag : Str) (space : Option Str)
    (as : List (Str × Option Str)) (kids content : List Node) (tpl : Bool) (hd : ((givenAttrs attrs).map (·.1)).Nodup)
    (h : buildElement U name attrs children ns = .ok (.elem tag space as kids tpl content)) : (as.map (·.1)).Nodup := by
  obtain ⟨sp, tg, short, k, hns, hsh, hall, hdis, hk, hnode⟩ := (C96_element U name attrs children ns _).1 h
  have has : as = short ++ givenAttrs attrs := by
    rcases hnode with ⟨-, -, e⟩ | ⟨-, e⟩
    · injection e
    · injection e
  rw [has, List.map_append, List.nodup_append]
  refine ⟨hsh.distinct, hd, fun a ha b hb e => ?_⟩
  obtain ⟨x, hx, rfl⟩ := List.mem_map.1 ha
  obtain ⟨y, hy, rfl⟩ := List.mem_map.1 hb
  exact hdis x hx y hy e

/-- Whatever is built with the builder serializes, at any place. -/
theorem C96_serializes (U : Uni) (n : Node) (h : Built U n) : ∀ ctx, ∃ s, toHtmlCompact U ctx n = .ok s := by
  have key : ∀ ctx, ∃ s, markup U ctx n = some s := by
    induction h with
    | text s => intro ctx; exact ⟨_, by simp [markup]; rfl⟩
    | comment s => intro ctx; exact ⟨_, by simp [markup]; rfl⟩
    | doctype hb =>
      intro ctx
      unfold buildDoctype at hb
      split at hb
      · cases hb
      · cases hb
        exact ⟨_, by simp [markup]; rfl⟩
    | @element name attrs children ns n kids hk hkids hb ih =>
      intro ctx
      obtain ⟨space, tag, short, kids', hns, hsh, hall, hdis, hk', hnode⟩ := (C96_element U name attrs children ns n).1 hb
      have hke : kids' = kids := by
        have : laidOutL (givenKids attrs children) = some kids := hk
        rw [this] at hk'
        cases hk'
        rfl
      subst hke
      have hv := ((elemName_iff U tag).1 hsh.tag).1
      have hav : ∀ a ∈ short ++ givenAttrs attrs, validAttrName a.1 = true := fun a ha => by
        rcases List.mem_append.1 ha with ha | ha
        · exact (attrName_iff _).1 (hsh.names a ha).1
        · exact (attrName_iff _).1 (hall a ha)
      obtain ⟨st, hst⟩ := startTag_ok (U := U) (o := ({ htmlNs := isHtmlNs (some space) } : TagOpts)) hv hav
      have hL : ∀ c, ∃ s, markupL U c kids' = some s := fun c => markupL_ok ih
      rcases hnode with ⟨htag, hspace, rfl⟩ | ⟨-, rfl⟩
      all_goals
        rw [markup, hst]
        dsimp only
        split
        · exact ⟨_, rfl⟩
        split
        · rename_i ht
          first
            | (obtain ⟨s, hs⟩ := hL none; rw [hs]; exact ⟨_, rfl⟩)
            | exact absurd ht.2.1 (by simp)
        · rename_i ht
          first
            | (obtain ⟨s, hs⟩ := hL (if some space = some c%"html" then some tag else none); rw [hs]; exact ⟨_, rfl⟩)
            | exact absurd ⟨by assumption, rfl, Or.inr (congrArg some (by assumption))⟩ ht
  intro ctx
  obtain ⟨s, hs⟩ := key ctx
  rw [C12_document_order, hs]
  exact ⟨s, rfl⟩

/-! ### Examples -/

section Examples
set_option maxRecDepth 20000

example : parseElementName Uni.sample c%"a[href=/x][title=\"a ] b\"][hidden]" = some (c%"a", [(c%"href", some c%"/x"), (c%"title", some c%"a ] b"), (c%"hidden", none)]) := by
  decide +kernel
example : Shorthand Uni.sample c%"a[href=/x][hidden]" c%"a" [(c%"href", some c%"/x"), (c%"hidden", none)] :=
  (C95_shorthand _ _ _ _).1 ⟨by decide +kernel, by decide⟩
example : ∀ t ∈ [c%"", c%"[a]", c%"a b", c%"a[b", c%"a[=x]", c%"a[b=x", c%"a[b=]x]", c%"a[b=\"x]", c%"a[b=\"x\"", c%"a[b=\"\\\"\"]", c%"a[b][b]", c%"1", c%"a[b=x[y]"],
    parseElementName Uni.sample t = none := by decide +kernel
example : laidOutL [.str c%"a", .iter [.none, .iter [.node (.comment c%"b")], .bool false], .str c%"c"] = some [.text c%"a", .comment c%"b", .text c%"c"] := rfl
example : buildElement Uni.sample c%"p[id=x]" (.mapping [(c%"class", some c%"y")]) [.str c%"hi", .iter [.none, .str c%"!"]]
    = .ok (.elem c%"p" (some c%"html") [(c%"id", some c%"x"), (c%"class", some c%"y")] [.text c%"hi", .text c%"!"] false []) := by with_unfolding_all rfl
example : buildElement Uni.sample c%"template" (.child (.str c%"hi")) [] = .ok (.elem c%"template" (some c%"html") [] [] true [.text c%"hi"]) := by with_unfolding_all rfl
example : buildElement Uni.sample c%"p[id=x]" (.mapping [(c%"id", some c%"y")]) [] = .error := by with_unfolding_all rfl
example : Built Uni.sample (.elem c%"p" (some c%"html") [] [.text c%"hi"] false []) :=
  .element (name := c%"p") (attrs := .child (.str c%"hi")) (children := []) (ns := none) (kids := [.text c%"hi"]) rfl
    (fun k hk => by rw [List.mem_singleton.1 hk]; exact .text _) (by with_unfolding_all rfl)
/-- A finding: names that differ in case only are not told to be duplicates. -/
example : buildElement Uni.sample c%"p[ID=x]" (.mapping [(c%"id", some c%"y")]) []
    = .ok (.elem c%"p" (some c%"html") [(c%"ID", some c%"x"), (c%"id", some c%"y")] [] false []) := by with_unfolding_all rfl
/-- A finding: a line feed at the end of the name of an attribute is accepted. -/
example : buildElement Uni.sample c%"p" (.mapping [(c%"id\n", some c%"y")]) []
    = .ok (.elem c%"p" (some c%"html") [(c%"id\n", some c%"y")] [] false []) := by with_unfolding_all rfl

end Examples

end JH
