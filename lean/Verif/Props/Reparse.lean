import Verif.Spec.Reparse
import Verif.Props.Serialize
import Verif.Props.EngInvent
import Verif.Props.Construct
import Verif.Props.EngLinks
import Verif.Props.EngNodes
/-! Property C106: parsing again what was written. -/
namespace JH
open Spec
set_option maxRecDepth 100000
seal Eng.result Eng.run

theorem verbatim_eq : literalTextElements = verbatim := rfl

/-! ### Where a `<` can stand in markup -/

/-- Every `<` begins an end tag, a doctype or the start tag of an element in the trees. -/
def TagsOnly (U : Uni) (l : List Node) (out : Str) : Prop := ∀ pre rest, out = pre ++ '<' :: rest →
  rest.head? = some '/' ∨ rest.head? = some '!' ∨
    ∃ name ns as kids tpl content post, Reach (.elem name ns as kids tpl content) l ∧ BareName name ∧ validTagName name = true ∧ (∀ a ∈ as, validAttrName a.1 = true) ∧
      rest = name ++ (as.flatMap (fun a => serializeAttr U { htmlNs := isHtmlNs ns } name a.1 a.2) ++ '>' :: post)

theorem TagsOnly.none {U : Uni} {l : List Node} {out : Str} (h : '<' ∉ out) : TagsOnly U l out := by
  intro pre rest e
  rw [e] at h
  simp at h

theorem TagsOnly.mono {U : Uni} {l l' : List Node} {out : Str} (h : TagsOnly U l out) (hl : ∀ m, Reach m l → Reach m l') : TagsOnly U l' out := by
  intro pre rest e
  rcases h pre rest e with h | h | ⟨name, ns, as, k, tpl, ct, post, h1, h2⟩
  · exact .inl h
  · exact .inr (.inl h)
  · exact .inr (.inr ⟨name, ns, as, k, tpl, ct, post, hl _ h1, h2⟩)

/-- Where a `<` stands in a concatenation. -/
theorem split_app {a b pre rest : Str} {c : Char} (h : a ++ b = pre ++ c :: rest) :
    (∃ r, a = pre ++ c :: r ∧ rest = r ++ b) ∨ (∃ p, pre = a ++ p ∧ b = p ++ c :: rest) := by
  rcases List.append_eq_append_iff.1 h with ⟨p, rfl, h2⟩ | ⟨r, h1, h2⟩
  · exact .inr ⟨p, rfl, h2⟩
  · cases r with
    | nil => exact .inr ⟨[], by simpa using h1.symm, by simpa using h2.symm⟩
    | cons x r =>
      simp only [List.cons_append, List.cons.injEq] at h2
      obtain ⟨rfl, rfl⟩ := h2
      exact .inl ⟨r, h1, rfl⟩

theorem TagsOnly.append {U : Uni} {l : List Node} {a b : Str} (ha : TagsOnly U l a) (hb : TagsOnly U l b) : TagsOnly U l (a ++ b) := by
  intro pre rest e
  rcases split_app e with ⟨r, h1, rfl⟩ | ⟨p, rfl, h2⟩
  · rcases ha _ _ h1 with h | h | ⟨name, ns, as, k, tpl, ct, post, k1, k2, k3, k4, rfl⟩
    · left; cases r <;> simp_all
    · right; left; cases r <;> simp_all
    · exact .inr (.inr ⟨name, ns, as, k, tpl, ct, post ++ b, k1, k2, k3, k4, by simp⟩)
  · exact hb _ _ h2

theorem attr_lt (U : Uni) (o : TagOpts) (name : Str) (attrs : List (Str × Option Str)) (ho : o.quoteAttrValues = true)
    (h2 : ∀ p ∈ attrs, '<' ∉ p.1) : '<' ∉ attrs.flatMap (fun a => serializeAttr U o name a.1 a.2) := by
  simp only [List.mem_flatMap, not_exists, not_and]
  intro p hp hc
  have hk := h2 p hp
  unfold serializeAttr at hc
  split at hc
  · simp [hk] at hc
  · dsimp only at hc
    split at hc
    · simp [hk] at hc
    · simp only [ho, Bool.not_true, Bool.false_and, Bool.false_eq_true, if_false] at hc
      have hq := C02_quote_choice o.quoteChar (p.2.getD [])
      have hesc := (C02_attr_contained _ hq (p.2.getD [])).2.1
      have hne : '<' ≠ chooseAttrQuote o.quoteChar (p.2.getD []) := by rcases hq with e | e <;> rw [e] <;> decide
      simp [hk, hesc, hne] at hc

theorem attr_head (U : Uni) (o : TagOpts) (name : Str) (attrs : List (Str × Option Str)) (post : Str) :
    (attrs.flatMap (fun a => serializeAttr U o name a.1 a.2) ++ '>' :: post).head? = some ' ' ∨ (attrs.flatMap (fun a => serializeAttr U o name a.1 a.2) ++ '>' :: post).head? = some '>' := by
  cases attrs with
  | nil => exact .inr rfl
  | cons p r =>
    left
    simp only [List.flatMap_cons]
    have : ∃ t, serializeAttr U o name p.1 p.2 = ' ' :: t := by
      unfold serializeAttr
      split
      · exact ⟨_, rfl⟩
      · dsimp only
        repeat' split
        all_goals exact ⟨_, rfl⟩
    obtain ⟨t, ht⟩ := this
    rw [ht]; rfl

theorem lt_startTag (U : Uni) (o : TagOpts) (name : Str) (attrs : List (Str × Option Str)) (out : Str) (ho : o.quoteAttrValues = true) (hs : o.trailingSolidus = false)
    (h : serializeStartTag U o name attrs = some out) (h2 : ∀ p ∈ attrs, '<' ∉ p.1) :
    validTagName name = true ∧ (∀ a ∈ attrs, validAttrName a.1 = true) ∧ out = '<' :: (name ++ (attrs.flatMap (fun a => serializeAttr U o name a.1 a.2) ++ c%">")) ∧
      '<' ∉ attrs.flatMap (fun a => serializeAttr U o name a.1 a.2) ++ c%">" := by
  unfold serializeStartTag at h
  split at h
  · simp at h
  · next hv =>
    split at h
    · simp at h
    · next hva =>
      simp only [hs, Bool.false_and, Bool.false_eq_true, if_false, Option.some.injEq] at h
      refine ⟨by simpa using hv, by simpa using hva, by rw [← h]; simp, ?_⟩
      rw [List.mem_append]
      exact fun hc => hc.elim (attr_lt U o name attrs ho h2) (by decide)

theorem validTagName_lt {name : Str} (h : validTagName name = true) : name.head? ≠ some '#' ∧ name ≠ [] := by
  constructor
  · intro e
    cases name with
    | nil => simp at e
    | cons c r =>
      simp only [List.head?_cons, Option.some.injEq] at e
      subst e
      unfold validTagName at h
      split at h
      · simp at h
      · next c cs hc =>
        have : c = '#' := by
          unfold dropNL at hc
          split at hc
          · next x hx =>
            have h3 : ('#' :: r) = x.reverse ++ ['\n'] := by
              have := congrArg List.reverse hx
              simpa using this
            rw [hc] at h3
            simp at h3
            exact h3.1.symm
          · simpa using (List.cons.inj hc).1.symm
        rw [this] at h
        simp only [Bool.and_eq_true] at h
        exact absurd h.1 (by decide)
  · rintro rfl
    revert h; decide

theorem text_lt (U : Uni) (ctx : Option Str) (d : Str) (h : ∀ p, ctx = some p → U.lower p ∉ verbatim) : '<' ∉ serializeTextFor U ctx d := by
  unfold serializeTextFor
  cases ctx with
  | none => exact (C01_text_no_markup d).1
  | some p =>
    dsimp only
    rw [if_neg (by rw [verbatim_eq]; simpa using h p rfl)]
    exact (C01_text_no_markup d).1

mutual
/-- Every `<` in the markup of a plain tree is the beginning of a tag of the tree. -/
theorem markup_tags (U : Uni) (ctx : Option Str) (hc : ∀ p, ctx = some p → U.lower p ∉ verbatim) :
    ∀ (n : Node) (out : Str), markup U ctx n = some out → (∀ m, Reach m [n] → PlainNode U m) → TagsOnly U [n] out
  | .text d, out, h, _ => by
    simp only [markup, Option.some.injEq] at h
    exact .none (h ▸ text_lt U ctx d hc)
  | .comment d, out, _, hp => absurd (hp _ (.here (List.mem_singleton.2 rfl))) (by simp [PlainNode])
  | .pi d, out, _, hp => absurd (hp _ (.here (List.mem_singleton.2 rfl))) (by simp [PlainNode])
  | .doctype name pub sys, out, h, hp => by
    simp only [markup, Option.some.injEq] at h
    have hn : '<' ∉ name := hp _ (.here (List.mem_singleton.2 rfl))
    have hs : '<' ∉ safeDoctypeName name := by unfold safeDoctypeName; split <;> simp [hn]
    have hids : '<' ∉ doctypeIds pub sys := by
      have he : ∀ v, '<' ∉ escapeAttr '"' v := fun v => (C02_attr_contained '"' (.inl rfl) v).2.1
      cases pub <;> cases sys <;> simp [doctypeIds, he]
    have h0 : ∃ r, out = '<' :: '!' :: r ∧ '<' ∉ r := by
      refine ⟨c%"DOCTYPE" ++ ((if (safeDoctypeName name).isEmpty then [] else ' ' :: safeDoctypeName name) ++ (doctypeIds pub sys ++ ['>'])), ?_, ?_⟩
      · rw [← h]; rfl
      · simp only [List.mem_append, not_or]
        refine ⟨by decide, ?_, hids, by decide⟩
        split
        · simp
        · simp [hs]
    obtain ⟨r, rfl, hr⟩ := h0
    intro pre rest e
    cases pre with
    | nil =>
      simp only [List.nil_append, List.cons.injEq, true_and] at e
      exact .inr (.inl (by rw [← e]; rfl))
    | cons c pre =>
      simp only [List.cons_append, List.cons.injEq] at e
      have : '<' ∈ '!' :: r := by rw [e.2]; simp
      simp [hr] at this
  | .doc kids, out, h, hp => by
    rw [markup] at h
    exact (markupL_tags U none (by simp) kids out h fun m hm => hp m (.doc (List.mem_singleton.2 rfl) hm)).mono
      fun m hr => .doc (List.mem_singleton.2 rfl) hr
  | .elem name ns as kids tpl content, out, h, hp => by
    obtain ⟨h1, h2, h3⟩ : PlainNode U (.elem name ns as kids tpl content) := hp _ (.here (List.mem_singleton.2 rfl))
    rw [markup] at h
    cases ht : serializeStartTag U { htmlNs := isHtmlNs ns } name as with
    | none => rw [ht] at h; simp at h
    | some tag =>
      rw [ht] at h
      dsimp only at h
      obtain ⟨hv, hva, hpost, hlt⟩ := lt_startTag U _ name as tag rfl rfl ht h2
      have hns := (validTagName_lt hv).1
      have htag : TagsOnly U [.elem name ns as kids tpl content] tag := by
        intro pre rest e
        cases pre with
        | nil =>
          rw [hpost] at e
          simp only [List.nil_append, List.cons.injEq, true_and] at e
          exact .inr (.inr ⟨name, ns, as, kids, tpl, content, [], .here (List.mem_singleton.2 rfl), h1, hv, hva, e.symm⟩)
        | cons c pre =>
          rw [hpost] at e
          simp only [List.cons_append, List.cons.injEq] at e
          have : '<' ∈ name ++ (as.flatMap (fun a => serializeAttr U { htmlNs := isHtmlNs ns } name a.1 a.2) ++ c%">") := by rw [e.2]; simp
          rcases List.mem_append.1 this with h | h
          · exact absurd rfl (h1 _ h).1
          · exact absurd h hlt
      have hend : TagsOnly U [.elem name ns as kids tpl content] (c%"</" ++ name ++ c%">") := by
        intro pre rest e
        cases pre with
        | nil =>
          simp only [List.nil_append, List.cons_append, List.cons.injEq, true_and] at e
          exact .inl (by rw [← e]; rfl)
        | cons c pre =>
          simp only [List.cons_append, List.nil_append, List.cons.injEq] at e
          have : '<' ∈ '/' :: (name ++ c%">") := by rw [e.2]; simp
          simp only [List.mem_cons, List.mem_append] at this
          rcases this with h | h | h
          · exact absurd h (by decide)
          · exact absurd rfl (h1 _ h).1
          · exact absurd h (by decide)
      split at h
      · simp only [Option.some.injEq] at h
        exact h ▸ htag
      · split at h
        · next hcond =>
          obtain ⟨-, rfl, -⟩ := hcond
          cases hi : markupL U none content with
          | none => rw [hi] at h; simp at h
          | some inner =>
            rw [hi] at h
            simp only [Option.map_some, Option.some.injEq] at h
            rw [← h]
            refine .append (.append htag ?_) hend
            exact (markupL_tags U none (by simp) content inner hi fun m hm => hp m (.content (List.mem_singleton.2 rfl) hns hm)).mono
              fun m hr => .content (List.mem_singleton.2 rfl) hns hr
        · cases hi : markupL U (if ns = some c%"html" then some name else none) kids with
          | none => rw [hi] at h; simp at h
          | some inner =>
            rw [hi] at h
            simp only [Option.map_some, Option.some.injEq] at h
            rw [← h]
            refine .append (.append htag ?_) hend
            refine (markupL_tags U _ ?_ kids inner hi fun m hm => hp m (.kid (List.mem_singleton.2 rfl) hns hm)).mono
              fun m hr => .kid (List.mem_singleton.2 rfl) hns hr
            intro p hp'
            split at hp'
            · next hn => simp only [Option.some.injEq] at hp'; subst hp'; exact h3 hn
            · simp at hp'
theorem markupL_tags (U : Uni) (ctx : Option Str) (hc : ∀ p, ctx = some p → U.lower p ∉ verbatim) :
    ∀ (l : List Node) (out : Str), markupL U ctx l = some out → (∀ m, Reach m l → PlainNode U m) → TagsOnly U l out
  | [], out, h, _ => by
    simp only [markupL, Option.some.injEq] at h
    exact .none (by simp [← h])
  | n :: l, out, h, hp => by
    rw [markupL] at h
    cases h1 : markup U ctx n with
    | none => rw [h1] at h; simp at h
    | some a =>
      cases h2 : markupL U ctx l with
      | none => rw [h1, h2] at h; simp at h
      | some b =>
        rw [h1, h2] at h
        simp only [Option.some.injEq] at h
        rw [← h]
        refine .append ?_ ?_
        · exact (markup_tags U ctx hc n a h1 fun m hm => hp m (hm.mono (by simp))).mono
            fun m hr => hr.mono (by simp)
        · exact (markupL_tags U ctx hc l b h2 fun m hm => hp m (hm.mono fun y hy => by simp [hy])).mono
            fun m hr => hr.mono fun y hy => by simp [hy]
end

/-! ### Names -/

theorem plain_ends {name : Str} (hv : validTagName name = true) (hp : BareName name) : ∀ c ∈ name, ¬ endsName c := by
  have hd : dropNL name = name := by
    unfold dropNL
    split
    · next r hr =>
      have : '\n' ∈ name := List.mem_reverse.1 (by rw [hr]; simp)
      exact absurd rfl (hp _ this).2.1
    · rfl
  unfold validTagName at hv
  rw [hd] at hv
  cases name with
  | nil => simp
  | cons a r =>
    simp only [Bool.and_eq_true, List.all_eq_true] at hv
    intro c hc he
    rcases List.mem_cons.1 hc with rfl | hc
    · have h1 := hv.1
      unfold endsName at he
      simp only [List.mem_cons, List.not_mem_nil, or_false] at he
      rcases he with rfl | rfl | rfl | rfl | rfl | rfl | rfl <;> exact absurd h1 (by decide)
    · have h1 := hv.2 c hc
      unfold endsName at he
      simp only [List.mem_cons, List.not_mem_nil, or_false] at he
      rcases he with rfl | rfl | rfl | rfl | rfl | rfl | rfl <;> exact absurd h1 (by decide)

/-- A prefix up to the first character of a kind is unique. -/
theorem prefix_unique {p : Char → Prop} : ∀ {a b x y : Str}, a ++ x = b ++ y → (∀ c ∈ a, ¬ p c) → (∀ c ∈ b, ¬ p c) → (∀ c, x.head? = some c → p c) →
    (∀ c, y.head? = some c → p c) → (x = [] → y = []  → True) → a = b ∧ x = y
  | [], [], x, y, h, _, _, _, _, _ => ⟨rfl, by simpa using h⟩
  | [], c :: b, x, y, h, _, hb, hx, _, _ => by
    simp only [List.nil_append, List.cons_append] at h
    exact absurd (hx c (by rw [h]; rfl)) (hb c (by simp))
  | c :: a, [], x, y, h, ha, _, _, hy, _ => by
    simp only [List.nil_append, List.cons_append] at h
    exact absurd (hy c (by rw [← h]; rfl)) (ha c (by simp))
  | c :: a, d :: b, x, y, h, ha, hb, hx, hy, hz => by
    simp only [List.cons_append, List.cons.injEq] at h
    obtain ⟨h1, h2⟩ := prefix_unique h.2 (fun c hc => ha c (by simp [hc])) (fun c hc => hb c (by simp [hc])) hx hy hz
    exact ⟨by rw [h.1, h1], h2⟩

/-- A tag in the markup of a plain tree is a tag of the tree. -/
theorem tagOccurs_has (U : Uni) {l : List Node} {out name : Str} (ho : TagsOnly U l out) (h : TagOccurs U out name) : ∃ w, HasTag l w ∧ U.lower name = U.lower w := by
  obtain ⟨pre, w, post, e, ⟨c, r, rfl, hc, hr⟩, hpost, v, hv, hn⟩ := h
  rcases ho pre _ e with h | h | ⟨nm, ns, as, k, tpl, ct, post', h1, h2, h3, -, h4⟩
  · simp only [List.cons_append, List.head?_cons, Option.some.injEq] at h
    subst h
    exact absurd hc (by decide)
  · simp only [List.cons_append, List.head?_cons, Option.some.injEq] at h
    subst h
    exact absurd hc (by decide)
  · have hends := plain_ends h3 h2
    have h5 := attr_head U { htmlNs := isHtmlNs ns } nm as post'
    have hw : ∀ x ∈ c :: r, ¬ endsName x := by
      intro x hx
      rcases List.mem_cons.1 hx with rfl | hx
      · intro he
        unfold endsName at he
        simp only [List.mem_cons, List.not_mem_nil, or_false] at he
        rcases he with rfl | rfl | rfl | rfl | rfl | rfl | rfl <;> exact absurd hc (by decide)
      · exact hr x hx
    obtain ⟨e1, -⟩ := prefix_unique (p := endsName) h4 hw hends hpost
      (fun x hx => by rcases h5 with h | h <;> rw [h] at hx <;> simp only [Option.some.injEq] at hx <;> subst hx <;> simp [endsName]) (fun _ _ => trivial)
    refine ⟨nm, ⟨ns, as, k, tpl, ct, h1⟩, ?_⟩
    have hlow : ∀ a b : Str, lowerA a = lowerA b → U.lower a = U.lower b := fun a b e => by rw [← U.lower_lowerA a, e, U.lower_lowerA]
    have hv' : U.lower v = U.lower nm := by
      rcases hv with rfl | rfl | rfl
      · rw [e1]
      · rw [e1, U.lower_lowerA]
      · rw [e1, U.lower_idem]
    have hnul : ∀ x ∈ v, x ≠ '\x00' := by
      have h0 : '\x00' ∉ nm := fun h => (h2 _ h).2.2 rfl
      rintro x hx rfl
      rcases hv with rfl | rfl | rfl
      · exact h0 (e1 ▸ hx)
      · obtain ⟨y, hy, e⟩ := List.mem_map.1 hx
        have : lowerC y = y := lowerC_nonalpha y (by rw [e]; decide)
        exact h0 (by rw [← e, this, ← e1]; exact hy)
      · exact h0 (e1 ▸ U.lower_from _ _ (by decide) (by decide) hx)
    rcases hn with hn | hn
    · rw [hlow _ _ hn, hv']
    · have : v.map (fun c => if c = '\x00' then '\ufffd' else c) = v := by
        have h := List.map_congr_left (f := fun c => if c = '\x00' then '\ufffd' else c) (g := id) (l := v) fun x hx => by simp [hnul x hx]
        rw [h, List.map_id]
      rw [this] at hn
      rw [hlow _ _ hn, hv']

theorem lower_image (U : Uni) : U.lower c%"image" = c%"image" := by rw [U.lower_ascii _ (by decide)]; decide +kernel

theorem nameFrom_has (U : Uni) {l : List Node} {out : Str} (own : List Str) (ho : TagsOnly U l out) (n : Node) (h : NameFrom U out own n) : NamedAfter U own l n := by
  cases n with
  | elem name ns as kids tpl content =>
    rcases h with h | h | ⟨h, h'⟩
    · exact .inl h
    · obtain ⟨w, h1, h2⟩ := tagOccurs_has U ho h
      exact .inr ⟨w, h1, .inl h2⟩
    · obtain ⟨w, h1, h2⟩ := tagOccurs_has U ho h'
      exact .inr ⟨w, h1, .inr ⟨h, by rw [← h2, lower_image]⟩⟩
  | _ => trivial

theorem plain_tags (U : Uni) (kids : List Node) (hp : ∀ m, Reach m kids → PlainNode U m) (out : Str) (h : toHtmlCompact U none (.doc kids) = .ok out) : TagsOnly U kids out := by
  rw [C12_document_order] at h
  cases hm : markup U none (.doc kids) with
  | none => rw [hm] at h; simp at h
  | some o =>
    rw [hm] at h
    simp only [Scan.ok.injEq] at h
    subst h
    rw [markup] at hm
    exact markupL_tags U none (by simp) kids o hm hp

/-- C106: what a plain tree is written as, parsed again as a document or as a fragment in any context, without sanitizing: every element is one that HTML
implies or has the name of an element of the tree. -/
theorem C106_elements (E : UrlEnv) (T : EntTables) (kids : List Node) (hp : ∀ m, Reach m kids → PlainNode E.U m) (out : Str)
    (h : toHtmlCompact E.U none (.doc kids) = .ok out) (scripting : Bool) :
    Everywhere (NamedAfter E.U (c%"html" :: c%"head" :: c%"body" :: Eng.implied) kids) (Eng.result (Eng.rawCfg E T false out (scripting := scripting))) ∧
    ∀ ctx ctxNs, Everywhere (NamedAfter E.U (ctx :: (if ctx = c%"html" then [c%"head", c%"body"] else []) ++ Eng.implied) kids)
      (Eng.result (Eng.rawCfg E T true out ctx ctxNs scripting)) := by
  have ho := plain_tags E.U kids hp out h
  exact ⟨Eng.everywhere_imp (fun n hn => nameFrom_has _ _ ho n hn) _ (Eng.C80_document_names E T out scripting).2,
    fun ctx ctxNs => Eng.everywhere_imp (fun n hn => nameFrom_has _ _ ho n hn) _ (Eng.C80_fragment_names E T out ctx ctxNs scripting).2⟩

/-! ### Sanitized trees -/

theorem plain_of_lower (U : Uni) {name : Str} (h : BareName (U.lower name)) : BareName name := by
  have key : ∀ x : Char, isAscii x = true → lowerC x = x → x ∉ U.lower name → x ∉ name := by
    intro x ha he hn hx
    exact hn (he ▸ U.lower_mem name x ha hx)
  have h1 : '<' ∉ name := key _ (by decide) (by decide) fun k => (h _ k).1 rfl
  have h2 : '\n' ∉ name := key _ (by decide) (by decide) fun k => (h _ k).2.1 rfl
  have h3 : '\x00' ∉ name := key _ (by decide) (by decide) fun k => (h _ k).2.2 rfl
  exact fun c hc => ⟨fun e => h1 (e ▸ hc), fun e => h2 (e ▸ hc), fun e => h3 (e ▸ hc)⟩

/-- A node that is as such a policy wants it is plain. -/
theorem safe_plain (E : UrlEnv) (C : SanCfg) (hC : PlainPolicy C) (n : Node) (h : SafeNode E C n) (hd : ∀ a b c, n = .doctype a b c → '<' ∉ a) : PlainNode E.U n := by
  cases n with
  | elem name ns as kids tpl content =>
    obtain ⟨h1, h2, -⟩ := h
    refine ⟨plain_of_lower E.U (hC.tags _ h1).1, fun p hp => ?_, fun _ => (hC.tags _ h1).2⟩
    rcases h2 p hp with ⟨q, hq, -, hk⟩ | ⟨hk, -⟩
    · exact hC.attrs q hq _ hk
    · rw [hk]; decide
  | comment d => exact absurd h (by simp [SafeNode, hC.comments])
  | pi d => exact absurd h (by simp [SafeNode, hC.comments])
  | doctype a b c => exact hd a b c rfl
  | _ => trivial

theorem after_allowed (U : Uni) (tags own : List Str) (l : List Node) (hs : ∀ name, HasTag l name → U.lower name ∈ tags) (n : Node)
    (h : NamedAfter U own l n) : AllowedAgain U own tags n := by
  cases n with
  | elem name ns as kids tpl content =>
    rcases h with h | ⟨w, hw, h⟩
    · exact .inl h
    · have := hs _ hw
      rcases h with h | ⟨h, h'⟩
      · exact .inr (.inl (h ▸ this))
      · exact .inr (.inr ⟨h, h' ▸ this⟩)
  | _ => trivial

/-- C106: a tree that is as the policy wants it, written as HTML and parsed again by a parser that does not sanitize: still every element is allowed, or one
that HTML implies. -/
theorem C106_policy (E : UrlEnv) (T : EntTables) (C : SanCfg) (hC : PlainPolicy C) (kids : List Node) (hs : ∀ m, Reach m kids → SafeNode E C m)
    (hd : ∀ name pub sys, Reach (.doctype name pub sys) kids → '<' ∉ name) (out : Str)
    (h : toHtmlCompact E.U none (.doc kids) = .ok out) (scripting : Bool) :
    Everywhere (AllowedAgain E.U (c%"html" :: c%"head" :: c%"body" :: Eng.implied) C.allowedTags) (Eng.result (Eng.rawCfg E T false out (scripting := scripting))) ∧
    ∀ ctx ctxNs, Everywhere (AllowedAgain E.U (ctx :: (if ctx = c%"html" then [c%"head", c%"body"] else []) ++ Eng.implied) C.allowedTags)
      (Eng.result (Eng.rawCfg E T true out ctx ctxNs scripting)) := by
  have hn' : ∀ name, HasTag kids name → E.U.lower name ∈ C.allowedTags := fun name ⟨ns, as, k, t, c, hr⟩ => (hs _ hr).1
  obtain ⟨h1, h2⟩ := C106_elements E T kids (fun m hm => safe_plain E C hC m (hs m hm) fun a b c e => hd a b c (e ▸ hm)) out h scripting
  exact ⟨Eng.everywhere_imp (fun n hn => after_allowed E.U _ _ kids hn' n hn) _ h1,
    fun ctx ctxNs => Eng.everywhere_imp (fun n hn => after_allowed E.U _ _ kids hn' n hn) _ (h2 ctx ctxNs)⟩

/-- C106: `JustHTML(JustHTML(html, policy=P).to_html(), sanitize=False)`, for every text: every element is allowed by the policy, or one that HTML implies. -/
theorem C106_sanitized (R : TransEnv) (T T' : EntTables) (fuel : List Node → Nat) (hf : FullFuel fuel) (a b : Args) (src : Source)
    (hx : a.fragment = true → ProperName a.ctx) (hon : a.sanitize ≠ some false) (ht : a.transforms = []) (P : SanCfg) (hP : a.policy = some P) (hsh : a.shared = false)
    (hN : P.Normal R.S.E.U) (hguard : ∀ tag, urlRuleFor P.url tag c%"http-equiv" = none ∧ urlRuleFor P.url tag c%"name" = none) (hC : PlainPolicy P)
    (root : Node) (h : construct R T fuel a src = some root) (hd : ∀ name pub sys kids, root = .doc kids → Reach (.doctype name pub sys) kids → '<' ∉ name) (out : Str) (ho : toHtmlCompact R.S.E.U none root = .ok out)
    (hb1 : b.sanitize = some false) (hb2 : b.transforms = []) :
    ∃ again, construct R T' fuel b (.text out) = some again ∧
      Everywhere (AllowedAgain R.S.E.U ((if b.fragment then b.ctx :: (if b.ctx = c%"html" then [c%"head", c%"body"] else []) else [c%"html", c%"head", c%"body"]) ++ Eng.implied) P.allowedTags) again := by
  obtain ⟨kids, rfl⟩ := (C104_total R T fuel a src).2.1 root h
  have hs : ∀ m, Reach m kids → SafeNode R.S.E P m := fun m hm => (C104_custom R T fuel hf a src hx hon ht P hP hsh hN hguard kids h m hm).1
  refine ⟨_, C104_unsanitized R T' fuel b out hb1 hb2, ?_⟩
  obtain ⟨h1, h2⟩ := C106_policy R.S.E T' P hC kids hs (fun a b c hr => hd a b c kids rfl hr) out ho b.scripting
  cases hbf : b.fragment with
  | true => exact h2 b.ctx b.ctxNs
  | false => exact (by simpa [Eng.rawCfg] using h1)

/-- The default policies have no surprises. -/
theorem default_plain (fragment : Bool) : PlainPolicy (defaultCfg fragment) := by
  have key : ((defaultCfg fragment).allowedTags.all fun t => (t.all fun c => c ≠ '<' && c ≠ '\n' && c ≠ '\x00') && !verbatim.contains t) = true ∧
      ((defaultCfg fragment).allowedAttrs.all fun p => p.2.all fun k => !k.contains '<') = true ∧ (defaultCfg fragment).dropComments = true := by
    cases fragment <;> decide +kernel
  obtain ⟨h1, h2, h3⟩ := key
  refine ⟨fun t ht => ?_, fun p hp k hk => ?_, h3⟩
  · have := List.all_eq_true.1 h1 t ht
    simp only [Bool.and_eq_true, Bool.not_eq_true', List.all_eq_true, decide_eq_true_eq] at this
    exact ⟨fun c hc => ⟨(this.1 c hc).1.1, (this.1 c hc).1.2, (this.1 c hc).2⟩, by simpa using this.2⟩
  · have := List.all_eq_true.1 (List.all_eq_true.1 h2 p hp) k hk
    simpa using this

/-- What C75, C76 and C77 say of a node. -/
theorem default_node (U : Uni) (fragment : Bool) (n : Node) (h1 : TagIn (defaultCfg fragment).allowedTags n) (h2 : AttrsIn (defaultCfg fragment).allowedAttrs n)
    (h3 : NoComment n) (hd : ∀ a b c, n = .doctype a b c → '<' ∉ a) : PlainNode U n ∧ ∀ name ns as kids tpl content, n = .elem name ns as kids tpl content → U.lower name ∈ (defaultCfg fragment).allowedTags := by
  have hC := default_plain fragment
  have hlow : ((defaultCfg fragment).allowedTags.all fun t => t.all isAscii && decide (lowerA t = t)) = true := by cases fragment <;> decide +kernel
  cases n with
  | elem name ns as kids tpl content =>
    obtain ⟨-, h1⟩ := h1
    have hl : U.lower name = name := by
      have := List.all_eq_true.1 hlow name h1
      simp only [Bool.and_eq_true, decide_eq_true_eq] at this
      rw [U.lower_ascii _ this.1, this.2]
    refine ⟨⟨(hC.tags _ h1).1, fun p hp => ?_, fun _ => by rw [hl]; exact (hC.tags _ h1).2⟩, fun _ _ _ _ _ _ e => ?_⟩
    · obtain ⟨q, hq, -, hk⟩ := h2 p hp
      exact hC.attrs q hq _ hk
    · simp only [Node.elem.injEq] at e
      rw [← e.1, hl]; exact h1
  | comment d => exact absurd h3 (by simp [NoComment])
  | pi d => exact absurd h3 (by simp [NoComment])
  | doctype a b c => exact ⟨hd a b c rfl, by simp⟩
  | _ => exact ⟨trivial, by simp⟩

/-- C106, with the default policy, for the documents and fragments of which C75 and C76 hold: texts without `<svg`, `<math` and `<selectedcontent`, a
fragment in an HTML context. -/
theorem C106_default (E : UrlEnv) (T T' : EntTables) (fragment : Bool) (html ctx : Str) (ctxNs : Option Str) (scripting : Bool)
    (h : NoTag E.U c%"selectedcontent" html) (hsvg : NoTag E.U c%"svg" html) (hmath : NoTag E.U c%"math" html)
    (hf : fragment = true → ctxNs = none ∨ ctxNs = some c%"html")
    (kids : List Node) (hk : Eng.result (Eng.safeCfg E T fragment html ctx ctxNs scripting) = .doc kids)
    (hd : ∀ name pub sys, Reach (.doctype name pub sys) kids → '<' ∉ name) (out : Str) (ho : toHtmlCompact E.U none (.doc kids) = .ok out) (scripting' : Bool) :
    Everywhere (AllowedAgain E.U (c%"html" :: c%"head" :: c%"body" :: Eng.implied) (defaultCfg fragment).allowedTags)
      (Eng.result (Eng.rawCfg E T' false out (scripting := scripting'))) ∧
    ∀ ctx' ctxNs', Everywhere (AllowedAgain E.U (ctx' :: (if ctx' = c%"html" then [c%"head", c%"body"] else []) ++ Eng.implied) (defaultCfg fragment).allowedTags)
      (Eng.result (Eng.rawCfg E T' true out ctx' ctxNs' scripting')) := by
  have key : EverywhereL (fun n => (TagIn (defaultCfg fragment).allowedTags n ∧ AttrsIn (defaultCfg fragment).allowedAttrs n) ∧ NoComment n) kids := by
    have h3 := Eng.C77_no_comments E T fragment html ctx ctxNs scripting
    have h12 : Everywhere (fun n => TagIn (defaultCfg fragment).allowedTags n ∧ AttrsIn (defaultCfg fragment).allowedAttrs n)
        (Eng.result (Eng.safeCfg E T fragment html ctx ctxNs scripting)) := by
      cases fragment with
      | false => exact Eng.everywhere_and _ (Eng.C75_document_partial E T html scripting h) (Eng.C76_document_partial E T html scripting h hsvg hmath)
      | true =>
        have hf1 := hf rfl
        exact Eng.everywhere_and _ (Eng.C75_fragment_partial E T html ctx ctxNs scripting h hf1) (Eng.C76_fragment_partial E T html ctx ctxNs scripting h hsvg hmath hf1)
    have := Eng.everywhere_and _ h12 h3
    rw [hk] at this
    exact this.2
  have hall := fun m (hm : Reach m kids) => default_node E.U fragment m (everywhere_reach hm key).1.1 (everywhere_reach hm key).1.2 (everywhere_reach hm key).2
    fun a b c e => hd a b c (e ▸ hm)
  obtain ⟨h1, h2⟩ := C106_elements E T' kids (fun m hm => (hall m hm).1) out ho scripting'
  have hn' : ∀ name, HasTag kids name → E.U.lower name ∈ (defaultCfg fragment).allowedTags := fun name ⟨ns, as, k, t, c, hr⟩ => (hall _ hr).2 _ _ _ _ _ _ rfl
  exact ⟨Eng.everywhere_imp (fun n hn => after_allowed E.U _ _ kids hn' n hn) _ h1,
    fun ctx ctxNs => Eng.everywhere_imp (fun n hn => after_allowed E.U _ _ kids hn' n hn) _ (h2 ctx ctxNs)⟩

/-- A hostile tree: markup in the text and in an attribute. -/
def hostile : List Node :=
  [.elem c%"p" (some c%"html") [(c%"title", some c%"\"><img src=x onerror=f()>")] [.text c%"<script>f()</script>"] false []]

example : toHtmlCompact Uni.sample none (.doc hostile) =
    .ok c%"<p title='\"&gt;&lt;img src=x onerror=f()&gt;'>&lt;script&gt;f()&lt;/script&gt;</p>" := by decide +kernel

example (U : Uni) : ∀ m, Reach m hostile → PlainNode U m := by
  have h : EverywhereL (PlainNode U) hostile := by
    refine ⟨⟨⟨?_, ?_, ?_⟩, ⟨trivial, trivial⟩, by simp⟩, trivial⟩
    · intro c hc
      simp only [List.mem_cons, List.not_mem_nil, or_false] at hc
      subst hc; decide
    · intro p hp
      simp only [List.mem_cons, List.not_mem_nil, or_false] at hp
      subst hp; decide
    · intro _
      rw [U.lower_ascii _ (by decide)]; decide
  exact fun m hm => everywhere_reach hm h

/-- The hypotheses of `C106_sanitized` are met by a real policy and a text that hides markup in an attribute and in character references. -/
example : PlainPolicy { allowedTags := [c%"b", c%"p"], allowedAttrs := [(c%"*", [c%"title"])] } := by
  refine ⟨fun t ht => ?_, fun p hp k hk => ?_, rfl⟩
  · simp only [List.mem_cons, List.not_mem_nil, or_false] at ht
    rcases ht with rfl | rfl <;> exact ⟨by unfold BareName; decide, by decide⟩
  · simp only [List.mem_cons, List.not_mem_nil, or_false] at hp
    subst hp
    simp only [List.mem_cons, List.not_mem_nil, or_false] at hk
    subst hk; decide

example : ((construct TransEnv.sample EntTables.sample (fun l => 2 * Node.sizeL l + 1)
    { fragment := true, policy := some { allowedTags := [c%"b", c%"p"], allowedAttrs := [(c%"*", [c%"title"])], dropContent := [c%"script"] } }
    (.text c%"<p title='<script>'>&lt;script&gt;<script>f()</script><b onclick=g()>x")).map fun r => match toHtmlCompact Uni.sample none r with | .ok out => out | _ => []) =
    some c%"<p title=\"&lt;script&gt;\">&lt;script&gt;<b>x</b></p>" := by
  with_unfolding_all decide +kernel

/-- The rule about the text of `style` and the like is needed: a policy that allows `style` and `noembed` (whose text is written as it is) lets markup
through in which a `<` stands for itself. -/
example : toHtmlCompact Uni.sample none (.doc [.elem c%"style" (some c%"html") [] [.text c%"<img>"] false []]) = .ok c%"<style><img></style>" := by decide +kernel

end JH
