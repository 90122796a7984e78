import Verif.Props.Reparse
import Verif.Lemmas.EngWritten
import Verif.Lemmas.UrlRead
/-! Property C107: the attributes after parsing again what was written. -/
namespace JH.Eng
open Spec
set_option maxRecDepth 100000
seal Eng.result Eng.run

/-- The attributes of a fragment in the default context, or in that of `html`, that is parsed without sanitizing. -/
theorem raw_fragment_run (C : Cfg) [Ok C] (hC : C.fragment = true) (hx : C.ctxName = some c%"div" ∨ (C.ctxName = some c%"html" ∧ isHtmlNs C.ctxNs = true))
    (hr : C.plan.rawMode = true) (hsvg : ¬ Named C c%"svg") (hmath : ¬ Named C c%"math") : Everywhere (HtmlAttrs C) (result C) := by
  cases ht : textContext C with
  | true =>
    refine everywhere_imp (fun n hn => ?_) _ (text_result (C := C) (by rw [ht, hC]; rfl) [])
    cases n with
    | elem name ns as kids tpl content => exact absurd hn.2 (by simp)
    | _ => trivial
  | false =>
    have hroot : (buildRoot C (init C)).2 = { init C with heap := [{ kind := .fragment, name := c%"#document-fragment" }], doc := 0, body := 0, stack := [0] } := by
      cases C
      dsimp only at hC
      subst hC
      rfl
    have hs : (((setup C (buildRoot C (init C)).2).2.fulls = [((.fragment, c%"#document-fragment", none), [])] ∧ (setup C (buildRoot C (init C)).2).2.body = 0) ∨
        ((setup C (buildRoot C (init C)).2).2.fulls = [((.fragment, c%"#document-fragment", none), []), ((.element, c%"html", some c%"html"), []),
          ((.element, c%"head", some c%"html"), []), ((.element, c%"body", some c%"html"), [])] ∧ (setup C (buildRoot C (init C)).2).2.body = 3)) ∧
        (setup C (buildRoot C (init C)).2).2.fmt = [] := by
      rw [hroot]
      unfold setup iteQ
      rw [if_neg (show ¬ ((!C.fragment) = true) by simp [hC])]
      rcases hx with hx | ⟨hx, hns⟩
      · rw [if_neg (show ¬ ((isHtmlNs C.ctxNs && decide (C.ctxName = some c%"html")) = true) by simp [hx])]
        unfold whQ
        rw [if_neg (by simp [hx])]
        exact ⟨.inl ⟨rfl, rfl⟩, rfl⟩
      · rw [if_pos (show ((isHtmlNs C.ctxNs && decide (C.ctxName = some c%"html")) = true) by simp [hx, hns])]
        refine ⟨.inr ⟨?_, ?_⟩, ?_⟩ <;> simp only [setupHtml, bind_eq, whQ, hr, Bool.not_true, Bool.false_and, Bool.false_eq_true, if_false] <;> rfl
    obtain ⟨h1, h2⟩ := hs
    generalize hst : (setup C (buildRoot C (init C)).2).2 = s at h1 h2
    have hmem : ∀ x ∈ s.fulls, x.2 = [] ∧ (x.1.2.2 = none ∨ x.1.2.2 = some c%"html") := by
      rcases h1 with ⟨h1, -⟩ | ⟨h1, -⟩ <;> rw [h1] <;> simp
    have hget : ∀ i x, s.fulls[i]? = some x → (s.n i).full = x ∧ i < s.heap.length := by
      intro i x hx
      have hx' : (s.heap.map ENode.full)[i]? = some x := hx
      rw [List.getElem?_map, Option.map_eq_some_iff] at hx'
      obtain ⟨n, hn, rfl⟩ := hx'
      refine ⟨?_, (List.getElem?_eq_some_iff.1 hn).1⟩
      rw [St.n, List.getD_eq_getElem?_getD, hn]; rfl
    refine run_attrs (by rw [ht]; simp) hsvg hmath s hst h2 (ainv_start h2 (fun x hx => (hmem x hx).1) (fun hf => absurd hf (by simp [hC])) fun _ => ?_) ?_
    · rcases h1 with ⟨h1, hb⟩ | ⟨h1, hb⟩
      · obtain ⟨e, hl⟩ := hget 0 _ (by rw [h1]; rfl)
        unfold BodyNamed
        rw [hb]
        refine ⟨hl, fun hk => ?_⟩
        have : (s.n 0).kind = .fragment := congrArg (fun x => x.1.1) e
        rw [this] at hk; exact absurd hk (by simp)
      · obtain ⟨e, hl⟩ := hget 3 _ (by rw [h1]; rfl)
        unfold BodyNamed
        rw [hb]
        exact ⟨hl, fun _ => congrArg (fun x => x.1.2.1) e⟩
    · intro x hx ns hns _
      rw [heads_fulls] at hx
      obtain ⟨y, hy, rfl⟩ := List.mem_map.1 hx
      rcases (hmem y hy).2 with h | h
      · rw [h] at hns; exact absurd hns (by simp)
      · rw [h] at hns; exact (Option.some.inj hns).symm

end JH.Eng

namespace JH
open Spec
set_option maxRecDepth 100000
seal Eng.result Eng.run

theorem asRead_eq : ∀ v : Str, nulFix (newlines v) = asRead v := by
  have hcr : ∀ b : Str, b.head? ≠ some '\n' → newlines ('\r' :: b) = '\n' :: newlines b ∧ asRead ('\r' :: b) = '\n' :: asRead b := by
    intro b hb
    cases b with
    | nil => exact ⟨rfl, rfl⟩
    | cons x b =>
      have hx : x ≠ '\n' := fun e => hb (by rw [e]; rfl)
      constructor
      · rw [newlines.eq_def]
        split
        · next e => exact absurd e (by simp)
        · next e => exact absurd e (by simp)
        · next e => simp at e; exact absurd e.1 hx
        · next e => simp at e; rw [e.1, e.2]
        · next h1 h2 h3 e =>
          obtain ⟨rfl, rfl⟩ := List.cons.inj e
          exact absurd rfl (h3 x b rfl)
      · rw [asRead]
        · simp
        · intro r _ e; exact absurd (List.cons.inj e).1 hx
  intro v
  induction v using newlines.induct with
  | case1 => rfl
  | case2 => rfl
  | case3 r ih => simp only [newlines, asRead]; rw [← ih]; rfl
  | case4 c r hc ih =>
    obtain ⟨e1, e2⟩ := hcr (c :: r) (by simpa using hc)
    rw [e1, e2, ← ih]; rfl
  | case5 c r h1 h2 h3 ih =>
    have hc : c ≠ '\r' := by
      rintro rfl
      cases r with
      | nil => exact h1 rfl rfl
      | cons x r => exact h3 x r rfl rfl
    have e1 : newlines (c :: r) = c :: newlines r := by
      rw [newlines.eq_def]
      split
      · next e => exact absurd e (by simp)
      · next e => exact absurd (List.cons.inj e).1 hc
      · next e => exact absurd (List.cons.inj e).1 hc
      · next e => exact absurd (List.cons.inj e).1 hc
      · next e => obtain ⟨rfl, rfl⟩ := List.cons.inj e; rfl
    rw [e1, asRead]
    · rw [if_neg hc, ← ih]; rfl
    · intro r' h _; exact hc h

theorem fold_cases (C : Eng.Cfg) (k : Str) : Eng.foldName C k = lowerA k ∨ Eng.foldName C k = C.E.U.lower k := by
  unfold Eng.foldName
  split
  · exact .inl rfl
  · exact .inr rfl

theorem lowerA_nul {k : Str} (h : '\x00' ∉ k) : '\x00' ∉ lowerA k := by
  intro hx
  obtain ⟨y, hy, e⟩ := List.mem_map.1 hx
  have : lowerC y = y := lowerC_nonalpha y (by rw [e]; decide)
  exact h (by rw [← e, this]; exact hy)

theorem lower_nul (U : Uni) {k : Str} (h : '\x00' ∉ k) : '\x00' ∉ U.lower k := fun hx => h (U.lower_from _ _ (by decide) (by decide) hx)

/-- The name that the engine gives an element for a bare name. -/
theorem general_cases (C : Eng.Cfg) {w : Str} (h : '\x00' ∉ w) : Eng.generalName C w = w ∨ Eng.generalName C w = lowerA w ∨ Eng.generalName C w = C.E.U.lower w := by
  unfold Eng.generalName
  rcases Eng.compiledName_cases (C := C) w with e | e | e <;> rw [e]
  · exact .inl (Eng.nulFix_of h)
  · exact .inr (.inl (Eng.nulFix_of (lowerA_nul h)))
  · exact .inr (.inr (Eng.nulFix_of (lower_nul _ h)))

theorem general_lower (C : Eng.Cfg) {w : Str} (h : '\x00' ∉ w) : C.E.U.lower (Eng.generalName C w) = C.E.U.lower w := by
  unfold Eng.generalName
  rcases Eng.compiledName_cases (C := C) w with e | e | e <;> rw [e]
  · rw [Eng.nulFix_of h]
  · rw [Eng.nulFix_of (lowerA_nul h), C.E.U.lower_lowerA]
  · rw [Eng.nulFix_of (lower_nul _ h), C.E.U.lower_idem]

theorem rawAttrs_sub (C : Eng.Cfg) {as : List (Str × Option Str)} {kv : Str × Option Str} (h : kv ∈ Eng.rawAttrs C as) : kv ∈ as := by
  unfold Eng.rawAttrs at h
  split at h
  · exact (List.mem_filter.1 h).1
  · exact h

/-- An attribute that is read from the markup of a plain tree is one of the tree. -/
theorem attrFrom_after (C : Eng.Cfg) {l : List Node} (ho : TagsOnly C.E.U l C.html) (hk : ∀ m, Reach m l → PlainKeys m) {name : Str} {kv : Str × Option Str}
    (h : Eng.AttrFrom C name kv) : ∃ w ns as' kids tpl content, Reach (.elem w ns as' kids tpl content) l ∧
      (name = w ∨ name = lowerA w ∨ name = C.E.U.lower w ∨ (name = c%"img" ∧ C.E.U.lower w = c%"image")) ∧
      ∃ p ∈ as', (kv.1 = lowerA p.1 ∨ kv.1 = C.E.U.lower p.1) ∧
        (kv.2 = some (asRead (p.2.getD [])) ∨ (kv.2 = some [] ∧ ∃ v, p.2 = some v ∧ C.E.U.lower v = C.E.U.lower p.1)) := by
  obtain ⟨s, ⟨⟨pre, hp⟩, c, r, rfl, hc⟩, hn, hkv⟩ := h
  have hcl : c ≠ '/' ∧ c ≠ '!' := by
    constructor <;> rintro rfl <;> exact absurd hc (by decide)
  rcases ho pre _ hp.symm with h | h | ⟨w, ns, as, kids, tpl, content, post, h1, h2, h3, h4, h5⟩
  · simp [hcl] at h
  · simp [hcl] at h
  have hw : w ≠ [] := (validTagName_lt h3).2
  have hends := plain_ends h3 h2
  have hhead := attr_head C.E.U { htmlNs := isHtmlNs ns } w as post
  have hs : Eng.splitName (c :: r) = (w, as.flatMap (fun a => serializeAttr C.E.U { htmlNs := isHtmlNs ns } w a.1 a.2) ++ '>' :: post) := by
    rw [h5]
    cases w with
    | nil => exact absurd rfl hw
    | cons x w =>
      have := takeWhile_append_stop (p := fun x => !Eng.isTagStop x) (a := w) (b := as.flatMap (fun a => serializeAttr C.E.U { htmlNs := isHtmlNs ns } (x :: w) a.1 a.2) ++ '>' :: post)
        (fun y hy => by
          have := hends y (by simp [hy])
          cases ht : Eng.isTagStop y with
          | false => rfl
          | true => exact absurd (Eng.tagStop_ends ht) this)
        (fun y hy => by rcases hhead with h | h <;> rw [h] at hy <;> injection hy with hy <;> subst hy <;> rfl)
      rw [List.cons_append, Eng.splitName, this.1, this.2]
  rw [hs] at hn hkv
  dsimp only at hn hkv
  have hnul : '\x00' ∉ w := fun h => (h2 _ h).2.2 rfl
  refine ⟨w, ns, as, kids, tpl, content, h1, ?_, ?_⟩
  · rcases hn with hn | ⟨hn, hn'⟩
    · rw [hn]; exact (general_cases C hnul).imp id fun h => h.imp id .inl
    · right; right; right
      refine ⟨hn, ?_⟩
      rw [← general_lower C hnul, hn', lower_image]
  · have hkeys : ∀ p ∈ as, BareName p.1 := hk _ h1
    obtain ⟨p, hp, hr1, hr2⟩ := Eng.allAttrs_written C C.E.U _ rfl w post as (fun a ha => ⟨h4 a ha, fun h => (hkeys a ha _ h).2.1 rfl⟩) kv (rawAttrs_sub C hkv)
    have hpn : '\x00' ∉ p.1 := fun h => (hkeys p hp _ h).2.2 rfl
    refine ⟨p, hp, ?_, ?_⟩
    · rcases fold_cases C p.1 with e | e
      · left; rw [hr1, e, Eng.nulFix_of (lowerA_nul hpn)]
      · right; rw [hr1, e, Eng.nulFix_of (lower_nul _ hpn)]
    · rw [← asRead_eq]; exact hr2

theorem not_named_after (C : Eng.Cfg) {l : List Node} (ho : TagsOnly C.E.U l C.html) {name : Str} (hl : C.E.U.lower name = name)
    (hn : name ∉ [c%"p", c%"br", c%"tbody", c%"tr", c%"colgroup", c%"img"]) (h : ∀ w, HasTag l w → C.E.U.lower w ≠ name) : ¬ Eng.Named C name := by
  rintro ⟨k | k | ⟨k, _⟩⟩
  · simp at k hn; grind
  · obtain ⟨w, hw, e⟩ := tagOccurs_has C.E.U ho (k.spec rfl)
    exact h w hw (by rw [← e, hl])
  · exact hn (by simp [k])

theorem tagsOnly_dropBom {U : Uni} {l : List Node} {out : Str} (h : TagsOnly U l out) : TagsOnly U l (Eng.dropBom out) := by
  unfold Eng.dropBom
  split
  · next c r =>
    split
    · intro pre rest e
      exact h (c :: pre) rest (by rw [e]; rfl)
    · exact h
  · exact h

theorem htmlAttrs_after (C : Eng.Cfg) (hr : C.plan.rawMode = true) {l : List Node} (ho : TagsOnly C.E.U l C.html) (hk : ∀ m, Reach m l → PlainKeys m) (n : Node)
    (h : Eng.HtmlAttrs C n) : AttrsAfter C.E.U l n := by
  cases n with
  | elem name ns as kids tpl content =>
    rcases h.2.2 with ⟨-, h⟩ | ⟨h, -⟩
    · exact fun kv hkv => attrFrom_after C ho hk (h kv hkv)
    · rw [hr] at h; exact absurd h (by simp)
  | _ => trivial

/-- C107: what a plain tree without `svg` and `math` is written as, parsed again as a document or as a fragment (in the default context or in `html`), without
sanitizing: every attribute of every element is an attribute of an element with that name in the tree, with the same value. -/
theorem C107_attributes (E : UrlEnv) (T : EntTables) (kids : List Node) (hp : ∀ m, Reach m kids → PlainNode E.U m) (hk : ∀ m, Reach m kids → PlainKeys m)
    (hf : ∀ w, HasTag kids w → E.U.lower w ≠ c%"svg" ∧ E.U.lower w ≠ c%"math") (out : Str) (h : toHtmlCompact E.U none (.doc kids) = .ok out) (scripting : Bool) :
    Everywhere (AttrsAfter E.U kids) (Eng.result (Eng.rawCfg E T false out (scripting := scripting))) ∧
    (∀ ctxNs, Everywhere (AttrsAfter E.U kids) (Eng.result (Eng.rawCfg E T true out c%"div" ctxNs scripting))) ∧
    ∀ ctxNs, isHtmlNs ctxNs = true → Everywhere (AttrsAfter E.U kids) (Eng.result (Eng.rawCfg E T true out c%"html" ctxNs scripting)) := by
  have ho := tagsOnly_dropBom (plain_tags E.U kids hp out h)
  have hsvg : ∀ C : Eng.Cfg, C.E = E → C.html = Eng.dropBom out → ¬ Eng.Named C c%"svg" := fun C e1 e2 =>
    not_named_after C (l := kids) (by rw [e1, e2]; exact ho) (by rw [C.E.U.lower_ascii _ (by decide)]; decide +kernel) (by decide +kernel) fun w hw => by rw [e1]; exact (hf w hw).1
  have hmath : ∀ C : Eng.Cfg, C.E = E → C.html = Eng.dropBom out → ¬ Eng.Named C c%"math" := fun C e1 e2 =>
    not_named_after C (l := kids) (by rw [e1, e2]; exact ho) (by rw [C.E.U.lower_ascii _ (by decide)]; decide +kernel) (by decide +kernel) fun w hw => by rw [e1]; exact (hf w hw).2
  refine ⟨?_, fun ctxNs => ?_, fun ctxNs hns => ?_⟩
  · exact Eng.everywhere_imp (fun n hn => htmlAttrs_after (Eng.rawCfg E T false out (scripting := scripting)) rfl ho hk n hn) _ (Eng.document_run _ rfl (hsvg _ rfl rfl) (hmath _ rfl rfl))
  · exact Eng.everywhere_imp (fun n hn => htmlAttrs_after (Eng.rawCfg E T true out c%"div" ctxNs scripting) rfl ho hk n hn) _
      (Eng.raw_fragment_run _ rfl (.inl rfl) rfl (hsvg _ rfl rfl) (hmath _ rfl rfl))
  · exact Eng.everywhere_imp (fun n hn => htmlAttrs_after (Eng.rawCfg E T true out c%"html" ctxNs scripting) rfl ho hk n hn) _
      (Eng.raw_fragment_run _ rfl (.inr ⟨rfl, hns⟩) rfl (hsvg _ rfl rfl) (hmath _ rfl rfl))

/-! ### Sanitized trees -/

theorem after_again (U : Uni) (C : SanCfg) (hC : PlainAttrs C) (l : List Node)
    (hs : ∀ name ns as kids tpl content, Reach (.elem name ns as kids tpl content) l → ∀ q ∈ as, AttrAllowed U.lower C.allowedAttrs C.forceRel name q.1) (n : Node)
    (h : AttrsAfter U l n) : AttrsAgain U C n := by
  cases n with
  | elem name ns as kids tpl content =>
    intro kv hkv
    obtain ⟨w, ns', as', k', tpl', ct', hr, hw, p, hp, hk, -⟩ := h kv hkv
    have hall := hs _ _ _ _ _ _ hr p hp
    have hkey : kv.1 = p.1 := by
      have : p.1.all isAscii = true ∧ lowerA p.1 = p.1 := by
        rcases hall with ⟨q, hq, -, hqk⟩ | ⟨e, -⟩
        · exact (hC.keys q hq _ hqk).2
        · rw [e]; decide
      rcases hk with h | h
      · rw [h, this.2]
      · rw [h, U.lower_ascii _ this.1, this.2]
    rw [hkey]
    have hl : ∀ a b : Str, U.lower a = U.lower b → AttrAllowed U.lower C.allowedAttrs C.forceRel a p.1 → AttrAllowed U.lower C.allowedAttrs C.forceRel b p.1 := by
      intro a b e h
      unfold AttrAllowed at h ⊢
      rw [← e]; exact h
    rcases hw with h | h | h | ⟨h, h'⟩
    · left; rw [h]; exact hall
    · left; rw [h]; exact hl _ _ (U.lower_lowerA w).symm hall
    · left; rw [h]; exact hl _ _ (U.lower_idem w).symm hall
    · right
      exact ⟨h, hl _ _ (by rw [h', lower_image]) hall⟩
  | _ => trivial

/-- C107: a tree that is as the policy wants it, written as HTML and parsed again by a parser that does not sanitize: still every attribute is allowed. -/
theorem C107_policy (E : UrlEnv) (T : EntTables) (C : SanCfg) (hC : PlainPolicy C) (hA : PlainAttrs C) (kids : List Node) (hs : ∀ m, Reach m kids → SafeNode E C m)
    (hd : ∀ name pub sys, Reach (.doctype name pub sys) kids → '<' ∉ name) (out : Str)
    (h : toHtmlCompact E.U none (.doc kids) = .ok out) (scripting : Bool) :
    Everywhere (AttrsAgain E.U C) (Eng.result (Eng.rawCfg E T false out (scripting := scripting))) ∧
    (∀ ctxNs, Everywhere (AttrsAgain E.U C) (Eng.result (Eng.rawCfg E T true out c%"div" ctxNs scripting))) ∧
    ∀ ctxNs, isHtmlNs ctxNs = true → Everywhere (AttrsAgain E.U C) (Eng.result (Eng.rawCfg E T true out c%"html" ctxNs scripting)) := by
  have hkeys : ∀ m, Reach m kids → PlainKeys m := by
    intro m hm
    cases m with
    | elem name ns as ks tpl content =>
      intro p hp
      rcases (hs _ hm).2.1 p hp with ⟨q, hq, -, hqk⟩ | ⟨e, -⟩
      · exact (hA.keys q hq _ hqk).1
      · rw [e]; unfold BareName; decide
    | _ => trivial
  obtain ⟨h1, h2, h3⟩ := C107_attributes E T kids (fun m hm => safe_plain E C hC m (hs m hm) fun a b c e => hd a b c (e ▸ hm)) hkeys (fun w ⟨ns, as, k, t, c, hr⟩ => by
    have : E.U.lower w ∈ C.allowedTags := (hs _ hr).1
    exact ⟨fun e => hA.foreign.1 (e ▸ this), fun e => hA.foreign.2 (e ▸ this)⟩) out h scripting
  have hg := fun n hn => after_again E.U C hA kids (fun _ _ _ _ _ _ hr => (hs _ hr).2.1) n hn
  exact ⟨Eng.everywhere_imp hg _ h1, fun ctxNs => Eng.everywhere_imp hg _ (h2 ctxNs), fun ctxNs hns => Eng.everywhere_imp hg _ (h3 ctxNs hns)⟩

/-- C107: `JustHTML(JustHTML(html, policy=P).to_html(), sanitize=False)`, for every text: every attribute is allowed by the policy. -/
theorem C107_sanitized (R : TransEnv) (T T' : EntTables) (fuel : List Node → Nat) (hf : FullFuel fuel) (a b : Args) (src : Source)
    (hx : a.fragment = true → ProperName a.ctx) (hon : a.sanitize ≠ some false) (ht : a.transforms = []) (P : SanCfg) (hP : a.policy = some P) (hsh : a.shared = false)
    (hN : P.Normal R.S.E.U) (hguard : ∀ tag, urlRuleFor P.url tag c%"http-equiv" = none ∧ urlRuleFor P.url tag c%"name" = none) (hC : PlainPolicy P) (hA : PlainAttrs P)
    (root : Node) (h : construct R T fuel a src = some root) (hd : ∀ name pub sys kids, root = .doc kids → Reach (.doctype name pub sys) kids → '<' ∉ name) (out : Str) (ho : toHtmlCompact R.S.E.U none root = .ok out)
    (hb1 : b.sanitize = some false) (hb2 : b.transforms = []) (hb3 : b.fragment = true → b.ctx = c%"div" ∨ (b.ctx = c%"html" ∧ isHtmlNs b.ctxNs = true)) :
    ∃ again, construct R T' fuel b (.text out) = some again ∧ Everywhere (AttrsAgain R.S.E.U P) again := by
  obtain ⟨kids, rfl⟩ := (C104_total R T fuel a src).2.1 root h
  have hs : ∀ m, Reach m kids → SafeNode R.S.E P m := fun m hm => (C104_custom R T fuel hf a src hx hon ht P hP hsh hN hguard kids h m hm).1
  refine ⟨_, C104_unsanitized R T' fuel b out hb1 hb2, ?_⟩
  obtain ⟨h1, h2, h3⟩ := C107_policy R.S.E T' P hC hA kids hs (fun a b c hr => hd a b c kids rfl hr) out ho b.scripting
  cases hbf : b.fragment with
  | true =>
    rcases hb3 hbf with e | ⟨e, hns⟩
    · rw [e]; exact h2 b.ctxNs
    · rw [e]; exact h3 b.ctxNs hns
  | false => exact (by simpa [Eng.rawCfg] using h1)

/-! ### The default policy -/

/-- What C75, C76 and C79 say of a node. -/
def DefaultNode (fragment : Bool) (n : Node) : Prop :=
  TagIn (defaultCfg fragment).allowedTags n ∧ AttrsIn (defaultCfg fragment).allowedAttrs n ∧ LinksIn [c%"http", c%"https", c%"mailto", c%"tel"] n

/-- The attributes after writing and reading are as harmless as before. -/
theorem again_harmless (U : Uni) (fragment : Bool) (kids : List Node) (hs : ∀ m, Reach m kids → DefaultNode fragment m) (n : Node) (h : AttrsAfter U kids n) :
    AttrsIn (defaultCfg fragment).allowedAttrs n ∧ LinksIn [c%"http", c%"https", c%"mailto", c%"tel"] n := by
  cases n with
  | elem name ns as ks tpl content =>
    have hlow : ((defaultCfg fragment).allowedTags.all fun t => t.all isAscii && decide (lowerA t = t) && decide (t ≠ c%"image")) = true := by cases fragment <;> decide +kernel
    have hkey : ((defaultCfg fragment).allowedAttrs.all fun p => p.2.all fun k => k.all isAscii && decide (lowerA k = k)) = true := by cases fragment <;> decide +kernel
    have key : ∀ kv ∈ as, ∃ ns' as' kids' tpl' ct', Reach (.elem name ns' as' kids' tpl' ct') kids ∧ ∃ p ∈ as', kv.1 = p.1 ∧
        (kv.2 = some (asRead (p.2.getD [])) ∨ kv.2 = some []) := by
      intro kv hkv
      obtain ⟨w, ns', as', k', tpl', ct', hr, hw, p, hp, hk, hv⟩ := h kv hkv
      obtain ⟨⟨-, h1⟩, h2, -⟩ := hs _ hr
      have hw1 := List.all_eq_true.1 hlow w h1
      simp only [Bool.and_eq_true, decide_eq_true_eq] at hw1
      have hlw : U.lower w = w := by rw [U.lower_ascii _ hw1.1.1, hw1.1.2]
      have hname : name = w := by
        rcases hw with h | h | h | ⟨-, h⟩
        · exact h
        · rw [h, hw1.1.2]
        · rw [h, hlw]
        · rw [hlw] at h; exact absurd h hw1.2
      subst hname
      obtain ⟨q, hq, -, hqk⟩ := h2 p hp
      have hk1 := List.all_eq_true.1 (List.all_eq_true.1 hkey q hq) _ hqk
      simp only [Bool.and_eq_true, decide_eq_true_eq] at hk1
      refine ⟨ns', as', k', tpl', ct', hr, p, hp, ?_, hv.imp id fun h => h.1⟩
      rcases hk with h | h
      · rw [h, hk1.2]
      · rw [h, U.lower_ascii _ hk1.1, hk1.2]
    refine ⟨fun kv hkv => ?_, fun v hv => ?_, fun v hv => ?_⟩
    · obtain ⟨ns', as', k', tpl', ct', hr, p, hp, hk, -⟩ := key kv hkv
      rw [hk]
      exact (hs _ hr).2.1 p hp
    · obtain ⟨ns', as', k', tpl', ct', hr, p, hp, hk, hv⟩ := key _ hv
      obtain ⟨k, pv⟩ := p
      dsimp only at hk hv
      subst hk
      obtain ⟨u, rfl, h1, h2⟩ := (hs _ hr).2.2.1 pv hp
      rcases hv with rfl | rfl
      · exact ⟨_, rfl, fun sc hsc => h1 sc (scheme_read hsc), network_read h2⟩
      · exact ⟨_, rfl, fun sc hsc => absurd hsc (by rw [show browserScheme [] = none from rfl]; simp), by decide⟩
    · obtain ⟨ns', as', k', tpl', ct', hr, p, hp, hk, hv⟩ := key _ hv
      obtain ⟨k, pv⟩ := p
      dsimp only at hk hv
      subst hk
      obtain ⟨u, rfl, h1, h2⟩ := (hs _ hr).2.2.2 pv hp
      rcases hv with rfl | rfl
      · refine ⟨_, rfl, ?_, network_read h2⟩
        cases hb : browserScheme (asRead u) with
        | none => rw [Option.getD_some]; exact hb
        | some sc => rw [scheme_read hb] at h1; exact absurd h1 (by simp)
      · exact ⟨_, rfl, by decide, by decide⟩
  | _ => exact ⟨trivial, trivial⟩

/-- C107, with the default policy, for the documents and fragments of which C75, C76 and C79 hold: what `JustHTML(html).to_html()` writes, parsed again by a
parser that does not sanitize, has only attributes that the policy allows for the element, and only harmless addresses. -/
theorem C107_default (E : UrlEnv) (T T' : EntTables) (fragment : Bool) (html ctx : Str) (ctxNs : Option Str) (scripting : Bool)
    (h : NoTag E.U c%"selectedcontent" html) (hsvg : NoTag E.U c%"svg" html) (hmath : NoTag E.U c%"math" html)
    (hf : fragment = true → ctxNs = none ∨ ctxNs = some c%"html")
    (kids : List Node) (hk : Eng.result (Eng.safeCfg E T fragment html ctx ctxNs scripting) = .doc kids)
    (hd : ∀ name pub sys, Reach (.doctype name pub sys) kids → '<' ∉ name) (out : Str) (ho : toHtmlCompact E.U none (.doc kids) = .ok out) (scripting' : Bool)
    (again : Node) (ha : again = Eng.result (Eng.rawCfg E T' false out (scripting := scripting')) ∨ again = Eng.result (Eng.rawCfg E T' true out c%"div" none scripting') ∨
      again = Eng.result (Eng.rawCfg E T' true out c%"html" none scripting')) :
    Everywhere (AttrsIn (defaultCfg fragment).allowedAttrs) again ∧ Everywhere (LinksIn [c%"http", c%"https", c%"mailto", c%"tel"]) again := by
  have key : EverywhereL (fun n => DefaultNode fragment n ∧ NoComment n) kids := by
    have h3 := Eng.C77_no_comments E T fragment html ctx ctxNs scripting
    have h12 : Everywhere (DefaultNode fragment) (Eng.result (Eng.safeCfg E T fragment html ctx ctxNs scripting)) := by
      cases fragment with
      | false =>
        exact Eng.everywhere_imp (fun n hn => ⟨hn.1, hn.2.1, hn.2.2⟩) _ (Eng.everywhere_and _ (Eng.C75_document_partial E T html scripting h)
          (Eng.everywhere_and _ (Eng.C76_document_partial E T html scripting h hsvg hmath) (Eng.C79_document_partial E T html scripting h hsvg hmath)))
      | true =>
        have hf1 := hf rfl
        exact Eng.everywhere_imp (fun n hn => ⟨hn.1, hn.2.1, hn.2.2⟩) _ (Eng.everywhere_and _ (Eng.C75_fragment_partial E T html ctx ctxNs scripting h hf1)
          (Eng.everywhere_and _ (Eng.C76_fragment_partial E T html ctx ctxNs scripting h hsvg hmath hf1) (Eng.C79_fragment_partial E T html ctx ctxNs scripting h hsvg hmath hf1)))
    have := Eng.everywhere_and _ h12 h3
    rw [hk] at this
    exact this.2
  have hall := fun m (hm : Reach m kids) => everywhere_reach hm key
  have hplain := fun m (hm : Reach m kids) => default_node E.U fragment m (hall m hm).1.1 (hall m hm).1.2.1 (hall m hm).2 fun a b c e => hd a b c (e ▸ hm)
  have hkey : ((defaultCfg fragment).allowedAttrs.all fun p => p.2.all fun k => k.all fun c => c ≠ '<' && c ≠ '\n' && c ≠ '\x00') = true := by cases fragment <;> decide +kernel
  have hfor : c%"svg" ∉ (defaultCfg fragment).allowedTags ∧ c%"math" ∉ (defaultCfg fragment).allowedTags := by cases fragment <;> decide +kernel
  have hkeys : ∀ m, Reach m kids → PlainKeys m := by
    intro m hm
    cases m with
    | elem name ns as ks tpl content =>
      intro p hp c hc
      obtain ⟨q, hq, -, hqk⟩ := (hall _ hm).1.2.1 p hp
      have := List.all_eq_true.1 (List.all_eq_true.1 (List.all_eq_true.1 hkey q hq) _ hqk) c hc
      simp only [Bool.and_eq_true, decide_eq_true_eq] at this
      exact ⟨this.1.1, this.1.2, this.2⟩
    | _ => trivial
  obtain ⟨h1, h2, h3⟩ := C107_attributes E T' kids (fun m hm => (hplain m hm).1) hkeys (fun w ⟨ns, as, k, t, c, hr⟩ => by
    have := (hplain _ hr).2 _ _ _ _ _ _ rfl
    exact ⟨fun e => hfor.1 (e ▸ this), fun e => hfor.2 (e ▸ this)⟩) out ho scripting'
  have hg := fun n hn => again_harmless E.U fragment kids (fun m hm => (hall m hm).1) n hn
  rcases ha with rfl | rfl | rfl
  · exact ⟨Eng.everywhere_imp (fun n hn => (hg n hn).1) _ h1, Eng.everywhere_imp (fun n hn => (hg n hn).2) _ h1⟩
  · exact ⟨Eng.everywhere_imp (fun n hn => (hg n hn).1) _ (h2 none), Eng.everywhere_imp (fun n hn => (hg n hn).2) _ (h2 none)⟩
  · exact ⟨Eng.everywhere_imp (fun n hn => (hg n hn).1) _ (h3 none rfl), Eng.everywhere_imp (fun n hn => (hg n hn).2) _ (h3 none rfl)⟩

/-- Written and read again: the attributes of the tree above are still those that it had, and the one that was hidden in a value is not one. -/
example : toHtmlCompact Uni.sample none (Eng.result (Eng.rawCfg UrlEnv.sample EntTables.sample true c%"<p title='\"&gt;&lt;img src=x onerror=f()&gt;'>&lt;script&gt;f()&lt;/script&gt;</p>")) =
    .ok c%"<p title='\"&gt;&lt;img src=x onerror=f()&gt;'>&lt;script&gt;f()&lt;/script&gt;</p>" := by
  with_unfolding_all decide +kernel

example : (∀ m, Reach m hostile → PlainKeys m) ∧ ∀ U : Uni, ∀ w, HasTag hostile w → U.lower w ≠ c%"svg" ∧ U.lower w ≠ c%"math" := by
  have h : EverywhereL (fun m => PlainKeys m ∧ ∀ name ns as ks tpl ct, m = .elem name ns as ks tpl ct → name = c%"p") hostile := by
    refine ⟨⟨⟨?_, fun _ _ _ _ _ _ e => by injection e with e; exact e.symm⟩, ⟨⟨trivial, by simp⟩, trivial⟩, by simp⟩, trivial⟩
    intro p hp
    simp only [List.mem_cons, List.not_mem_nil, or_false] at hp
    subst hp; unfold BareName; decide
  refine ⟨fun m hm => (everywhere_reach hm h).1, fun U w ⟨ns, as, ks, tpl, ct, hr⟩ => ?_⟩
  rw [(everywhere_reach hr h).2 _ _ _ _ _ _ rfl, U.lower_ascii _ (by decide)]
  decide +kernel

/-- The policy of the example for C106 has plain names. -/
example : PlainAttrs { allowedTags := [c%"b", c%"p"], allowedAttrs := [(c%"*", [c%"title"])] } := by
  refine ⟨fun p hp k hk => ?_, by decide +kernel⟩
  simp only [List.mem_cons, List.not_mem_nil, or_false] at hp
  subst hp
  simp only [List.mem_cons, List.not_mem_nil, or_false] at hk
  subst hk
  unfold BareName
  decide

/-- Why the value is "as a parser reads it": a carriage return in a value (from `&#13;`) is written as it is and read as a line feed. -/
example : asRead c%"a\r\nb\rc\x00" = c%"a\nb\nc\ufffd" := by decide

end JH
