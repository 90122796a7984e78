import Verif.Props.SanOrigin
import Verif.Props.RawText
import Verif.Props.Css
/-! C32: `script` and `style` elements after sanitization. -/
namespace JH
open Spec

/-- Raw text elements are not templates (only a `template` element has template content). -/
def Spec.PlainRaw (U : Uni) : Node → Prop
  | .elem name _ _ _ tpl _ => U.lower name ∈ [c%"script", c%"style"] → tpl = false
  | _ => True

theorem everywhere_reach {p : Node → Prop} {m : Node} {l : List Node} (h : Reach m l) : EverywhereL p l → p m := by
  have top : ∀ {l : List Node} {n : Node}, EverywhereL p l → n ∈ l → Everywhere p n := by
    intro l n hl hn
    induction l with
    | nil => simp at hn
    | cons a l ih =>
      simp only [EverywhereL] at hl
      rcases List.mem_cons.1 hn with rfl | hn
      · exact hl.1
      · exact ih hl.2 hn
  induction h with
  | here h => intro hl; have := top hl h; cases m <;> simp only [Everywhere] at this <;> first | exact this | exact this.1
  | kid h _ _ ih => intro hl; have := top hl h; simp only [Everywhere] at this; exact ih this.2.1
  | content h _ _ ih => intro hl; have := top hl h; simp only [Everywhere] at this; exact ih (this.2.2 trivial)
  | doc h _ ih => intro hl; have := top hl h; simp only [Everywhere] at this; exact ih this.2

/-- A raw text element after the hardening pass has hardened children. -/
theorem harden_raw {U : Uni} {m : Node} {l0 : List Node} (h : Reach m l0) : ∀ l, l0 = hardenL U l →
    (∀ name ns as kids content, Reach (.elem name ns as kids true content) l → name.head? ≠ some '#' → rawtextElements.contains (U.lower name) = false) →
    ∀ name ns as kids tpl content, m = .elem name ns as kids tpl content → rawtextElements.contains (U.lower name) = true →
    ∃ kids0, kids = hardenKids U (U.lower name) kids0 := by
  induction h with
  | here h =>
    intro l e _ name ns as kids tpl content hm hr
    subst e hm
    obtain ⟨n0, h0, e⟩ := mem_hardenL h
    cases n0 with
    | elem name' ns' as' kids' tpl' content' =>
      simp only [harden] at e
      split at e
      · simp only [Node.elem.injEq] at e
        obtain ⟨rfl, rfl, rfl, rfl, rfl, rfl⟩ := e
        exact ⟨kids', rfl⟩
      · rename_i hn
        simp only [Node.elem.injEq] at e
        obtain ⟨rfl, -⟩ := e
        exact absurd hr hn
    | _ => simp [harden] at e
  | @kid l0 name1 ns1 as1 kids1 tpl1 content1 h1 h2 h3 ih =>
    intro l e hT name ns as kids tpl content hm hr
    subst e
    obtain ⟨n0, h0, e0⟩ := mem_hardenL h1
    cases n0 with
    | elem name' ns' as' kids' tpl' content' =>
      simp only [harden] at e0
      split at e0
      · simp only [Node.elem.injEq] at e0
        obtain ⟨rfl, rfl, rfl, rfl, rfl, rfl⟩ := e0
        exfalso
        subst hm
        cases h3 with
        | here h => obtain ⟨d, e⟩ := hardenKids_text h; simp at e
        | kid h => obtain ⟨d, e⟩ := hardenKids_text h; simp at e
        | content h => obtain ⟨d, e⟩ := hardenKids_text h; simp at e
        | doc h => obtain ⟨d, e⟩ := hardenKids_text h; simp at e
      · simp only [Node.elem.injEq] at e0
        obtain ⟨rfl, rfl, rfl, rfl, rfl, -⟩ := e0
        exact ih kids' rfl (fun a b c d e hr hn => hT a b c d e (.kid h0 h2 hr) hn) name ns as kids tpl content hm hr
    | _ => simp [harden] at e0
  | @content l0 name1 ns1 as1 kids1 content1 h1 h2 h3 ih =>
    intro l e hT name ns as kids tpl content hm hr
    subst e
    obtain ⟨n0, h0, e0⟩ := mem_hardenL h1
    cases n0 with
    | elem name' ns' as' kids' tpl' content' =>
      simp only [harden] at e0
      split at e0
      · rename_i hraw
        simp only [Node.elem.injEq] at e0
        obtain ⟨rfl, rfl, rfl, rfl, rfl, rfl⟩ := e0
        rw [hT _ _ _ _ _ (.here h0) h2] at hraw; simp at hraw
      · simp only [Node.elem.injEq] at e0
        obtain ⟨rfl, rfl, rfl, rfl, rfl, ec⟩ := e0
        simp only [if_true] at ec
        exact ih content' ec (fun a b c d e hr hn => hT a b c d e (.content h0 h2 hr) hn) name ns as kids tpl content hm hr
    | _ => simp [harden] at e0
  | doc h1 h2 ih =>
    intro l e hT name ns as kids tpl content hm hr
    subst e
    obtain ⟨n0, h0, e0⟩ := mem_hardenL h1
    cases n0 with
    | elem => simp only [harden] at e0; split at e0 <;> simp at e0
    | doc kids' =>
      simp only [harden, Node.doc.injEq] at e0
      exact ih kids' e0 (fun a b c d e hr hn => hT a b c d e (.doc h0 hr) hn) name ns as kids tpl content hm hr
    | _ => simp [harden] at e0

/-- The concatenated text children. -/
theorem textsOf_map (l : List Str) : textsOf (l.map Node.text) = l := by
  induction l with
  | nil => rfl
  | cons a l ih => simp [textsOf, ih]

theorem hardenKids_spec (U : Uni) (name : Str) (hn : name ∈ [c%"script", c%"style"]) (kids0 : List Node) :
    ¬ HasEndTag name (textsOf (hardenKids U name kids0)).flatten ∧
    (name = c%"style" → (textsOf (hardenKids U name kids0)).flatten = [] ∨ cssDisallowed (textsOf (hardenKids U name kids0)).flatten false = false) := by
  have h1 : name.all isAscii = true ∧ '&' ∉ name ∧ name ≠ [] := by
    simp only [List.mem_cons, List.not_mem_nil, or_false] at hn
    rcases hn with rfl | rfl <;> decide
  have hempty : ¬ HasEndTag name [] := by
    rintro ⟨a, b, c, e, -⟩
    have := congrArg List.length e
    simp at this
  unfold hardenKids
  dsimp only
  split
  · exact ⟨hempty, fun _ => .inl rfl⟩
  · have hno := C08_no_end_tag U name (textsOf kids0).flatten h1.1 h1.2.1
    have hr : ∀ r : Str × Bool, r = neutralize (asciiLower U) name (textsOf kids0).flatten →
        (textsOf (if r.2 then (if r.1.isEmpty then [] else [.text r.1]) else (textsOf kids0).map Node.text)).flatten = r.1 := by
      intro r e
      by_cases hb : r.2 = true
      · rw [if_pos hb]
        by_cases hem : r.1.isEmpty = true
        · rw [if_pos hem]; simp only [List.isEmpty_iff] at hem; rw [hem]; rfl
        · rw [if_neg hem]; simp [textsOf]
      · rw [if_neg hb, textsOf_map]
        have : ¬ HasEndTag name (textsOf kids0).flatten := by
          intro hh
          apply hb
          rw [e]
          have := hh
          revert hno
          unfold neutralize
          rcases hres : neutLoop (c%"</" ++ name) ((textsOf kids0).flatten.length + 1) (textsOf kids0).flatten (asciiLower U (textsOf kids0).flatten) [] false with ⟨out, rest, ch⟩
          simp only [hres]
          cases ch with
          | true => intro _; rfl
          | false => intro h; exact absurd this h
        rw [e, C09_unchanged U name _ h1.1 this]
    have hr' := hr _ rfl
    by_cases hst : (decide (name = c%"style") && !(neutralize (asciiLower U) name (textsOf kids0).flatten).1.isEmpty &&
        cssDisallowed (neutralize (asciiLower U) name (textsOf kids0).flatten).1 false) = true
    · rw [if_pos hst]; exact ⟨hempty, fun _ => .inl rfl⟩
    · rw [if_neg hst, hr']
      refine ⟨hno, fun hs => ?_⟩
      rw [Bool.not_eq_true, Bool.and_eq_false_iff, Bool.and_eq_false_iff] at hst
      rcases hst with (h | h) | h
      · simp [hs] at h
      · exact .inl (by simpa using h)
      · exact .inr h

/-- A raw text element in a sanitized tree has hardened children. -/
theorem root_raw (S : SanEnv) (C : SanCfg) (root : Node) (hT : Everywhere (PlainRaw S.E.U) root)
    (name : Str) (ns : Option Str) (as : Attrs) (kids : List Node) (tpl : Bool) (content : List Node)
    (hm : Reach (.elem name ns as kids tpl content) [sanitizeRoot S C root]) (hp : ProperName name) (hn : S.E.U.lower name ∈ [c%"script", c%"style"]) :
    ∃ kids0, kids = hardenKids S.E.U (S.E.U.lower name) kids0 := by
  have hallow := C24_tags S C root name ns as kids tpl content hm hp
  have hraw : rawtextElements.contains (S.E.U.lower name) = true := by
    simp only [rawtextElements, List.contains_eq_mem, decide_eq_true_eq]; exact hn
  have hany : C.allowedTags.any rawtextElements.contains = true := List.any_eq_true.2 ⟨_, hallow, hraw⟩
  have hkids : ∀ l, EverywhereL (PlainRaw S.E.U) l → Reach (.elem name ns as kids tpl content) (sanitizeKids S C l) →
      ∃ kids0, kids = hardenKids S.E.U (S.E.U.lower name) kids0 := by
    intro l hl h
    rw [sanitizeKids_clean, if_pos hany] at h
    refine harden_raw h _ rfl ?_ name ns as kids tpl content rfl hraw
    intro nm ns1 as1 kids1 content1 hr hh
    by_cases hd : nm = c%"!doctype"
    · subst hd
      rw [S.E.U.lower_ascii _ (by decide)]; decide
    · obtain ⟨a, k, c, h1, -⟩ := cleanL_origin S C l false false _ hr _ _ _ _ _ _ rfl ⟨hh, hd⟩
      have := everywhere_reach h1 hl
      simp only [PlainRaw] at this
      cases hc : rawtextElements.contains (S.E.U.lower nm) with
      | false => rfl
      | true =>
        have hc' : S.E.U.lower nm ∈ [c%"script", c%"style"] := by
          simp only [rawtextElements, List.contains_eq_mem, decide_eq_true_eq] at hc; exact hc
        exact absurd (this hc') (by simp)
  have hdoc : ∀ l, Reach (.elem name ns as kids tpl content) [.doc l] → Reach (.elem name ns as kids tpl content) l := by
    intro l h
    cases h with
    | here h => simp at h
    | kid h => simp at h
    | content h => simp at h
    | doc h h' => simp only [List.mem_singleton, Node.doc.injEq] at h; exact h ▸ h'
  have hwrap : ∀ n, Everywhere (PlainRaw S.E.U) n →
      Reach (.elem name ns as kids tpl content) [match sanitizeKids S C [n] with | [only] => only | l => .doc l] →
      ∃ kids0, kids = hardenKids S.E.U (S.E.U.lower name) kids0 := by
    intro n hn h
    apply hkids [n] ⟨hn, trivial⟩
    split at h
    · rename_i only e; rw [e]; exact h
    · exact hdoc _ h
  cases root with
  | doc kids0 => simp only [sanitizeRoot] at hm; exact hkids _ hT.2 (hdoc _ hm)
  | _ => exact hwrap _ hT hm

/-- C32: after sanitizing, a `script` or `style` element has only text children, and their combined text contains no end tag for the
element (in any case). -/
theorem C32_inert (S : SanEnv) (C : SanCfg) (root : Node) (hT : Everywhere (PlainRaw S.E.U) root)
    (name : Str) (ns : Option Str) (as : Attrs) (kids : List Node) (tpl : Bool) (content : List Node)
    (hm : Reach (.elem name ns as kids tpl content) [sanitizeRoot S C root]) (hp : ProperName name) (hn : S.E.U.lower name ∈ [c%"script", c%"style"]) :
    (∀ k ∈ kids, ∃ d, k = .text d) ∧ ¬ HasEndTag (S.E.U.lower name) (textsOf kids).flatten := by
  obtain ⟨kids0, rfl⟩ := root_raw S C root hT name ns as kids tpl content hm hp hn
  exact ⟨fun k hk => hardenKids_text hk, (hardenKids_spec S.E.U _ hn kids0).1⟩

/-- The resource-loading and script-running constructs refused in style sheets. -/
def Spec.styleBlocked : List Str :=
  [c%"url(", c%"src(", c%"image(", c%"image-set(", c%"@import", c%"var(", c%"expression(", c%"behavior:", c%"-moz-binding", c%"progid:", c%"alphaimageloader"]

/-- C32: after sanitizing, the text of a `style` element contains no CSS escape, and, if it has no comments, no construct that loads
resources, in any mix of case. Partial: with comments the claim is false, see `C32_style_comment_fails`. -/
theorem C32_style_partial (S : SanEnv) (C : SanCfg) (root : Node) (hT : Everywhere (PlainRaw S.E.U) root)
    (name : Str) (ns : Option Str) (as : Attrs) (kids : List Node) (tpl : Bool) (content : List Node)
    (hm : Reach (.elem name ns as kids tpl content) [sanitizeRoot S C root]) (hp : ProperName name) (hn : S.E.U.lower name = c%"style") :
    '\\' ∉ (textsOf kids).flatten ∧ (isIn c%"/*" (textsOf kids).flatten = false → ∀ w ∈ styleBlocked, ¬ Occurs w (textsOf kids).flatten) := by
  obtain ⟨kids0, rfl⟩ := root_raw S C root hT name ns as kids tpl content hm hp (by rw [hn]; decide)
  rcases (hardenKids_spec S.E.U _ (by rw [hn]; decide) kids0).2 hn with h | h
  · rw [h]
    refine ⟨by simp, ?_⟩
    rintro - w hw ⟨a, x, b, e, hx⟩
    have hx0 : x = [] := by
      have := congrArg List.length e
      simp only [List.length_nil, List.length_append] at this
      exact List.eq_nil_of_length_eq_zero (by omega)
    subst hx0
    have : ∀ w ∈ styleBlocked, w ≠ [] := by decide
    exact this w hw hx.symm
  · obtain ⟨h1, c, h2, h3, h4⟩ := notDisallowed _ _ h
    refine ⟨h1, ?_⟩
    intro hc w hw ho
    have hi : ∀ w ∈ styleBlocked, w.any cssIgnorable = false ∧ (w ∈ cssBlocked ∨ w = c%"url(") := by decide
    have := compact_occurs _ c w h2 hc (hi w hw).1 ho
    rcases (hi w hw).2 with h5 | rfl
    · rw [h3 w h5] at this; simp at this
    · rw [h4 rfl] at this; simp at this

set_option maxRecDepth 20000 in
/-- C32 fails for style sheets with comments (F28): a `/*` inside a CSS string hides a `url()` from the check, though a CSS parser
loads it. -/
theorem C32_style_comment_fails :
    sanitizeRoot SanEnv.sample { allowedTags := [c%"style"] }
      (.doc [.elem c%"style" none [] [.text c%"a{content:'/*'} b{background:url(https://evil/*/)}"] false []]) =
      .doc [.elem c%"style" none [] [.text c%"a{content:'/*'} b{background:url(https://evil/*/)}"] false []] ∧
    cssLoads (.plain []) c%"a{content:'/*'} b{background:url(https://evil/*/)}" = [c%"https://evil/*/"] := by
  constructor
  · rfl
  · decide

set_option maxRecDepth 20000 in
/-- Non-vacuity of C32: a script whose text, split over two nodes, contains an end tag. -/
example : sanitizeRoot SanEnv.sample { allowedTags := [c%"script"] }
      (.doc [.elem c%"script" none [] [.text c%"a</scr", .elem c%"b" none [] [] false [], .text c%"ipt>"] false []]) =
      .doc [.elem c%"script" none [] [.text c%"a&lt;/script>"] false []] := rfl

end JH
