import Verif.Lemmas.PrettyLines

/-! Lemmas for C73: the text of a node is the markup of a reformatted version of it. -/
namespace JH
open Spec

variable {U : Uni} {ctx : Option Str}

/-! ### Inside preformatted text -/

theorem joinKids_nil_sep (rs : List (Option Str)) : joinKids [] true rs = catParts (rs.map PPart.child) := by
  have join_nil : ∀ l : List Str, join [] l = l.flatten := by
    intro l
    induction l with
    | nil => rfl
    | cons a l ih =>
      cases l with
      | nil => simp [join]
      | cons b l => rw [join, ih]; simp; simp
  have key : ∀ rs : List (Option Str), catParts (rs.map PPart.child) = if rs.all Option.isSome then some (rs.filterMap id).flatten else none := by
    intro rs
    induction rs with
    | nil => rfl
    | cons r rs ih =>
      cases r with
      | none => rfl
      | some s => rw [List.map_cons, catParts, ih]; by_cases h : rs.all Option.isSome = true <;> simp [h]
  rw [joinKids, key, join_nil]
  congr 2
  generalize rs.filterMap id = l
  induction l with
  | nil => rfl
  | cons a l ih => cases a with
    | nil => simpa using ih
    | cons c a => simpa using ih

theorem serKids_markup (name : Str) (ns : Option Str) (tpl : Bool) :
    (name = c%"template" ∧ tpl = true ∧ (ns = none ∨ ns = some c%"html")) ↔ (name = c%"template" && tpl && isHtmlNs ns) = true := by
  simp [isHtmlNs, and_assoc]

mutual
theorem pretty_pre (U : Uni) (size : Nat) : ∀ (n : Node) (ctx : Option Str) (indent : Nat), pretty U size ctx indent true n = markup U ctx n
  | .text d, ctx, indent => by rw [pretty, markup, if_pos rfl]
  | .comment d, ctx, indent => by rw [pretty, markup, if_pos rfl]; rfl
  | .pi d, ctx, indent => by rw [pretty, markup, if_pos rfl]; rfl
  | .doctype a b c, ctx, indent => by rw [pretty, markup, if_pos rfl]; rfl
  | .doc kids, ctx, indent => by rw [pretty, markup, if_pos rfl, joinKids_nil_sep, prettyL_pre U size kids none indent]
  | .elem name ns attrs kids tpl content, ctx, indent => by
    have key : ∀ (c0 c1 : Option Str) (tag : Str) (ks : List Node), catParts ((prettyKids U size c1 indent ks).map fun k => .child k.pre) = markupL U c1 ks →
        prettyElem U size indent true name c0 tag (prettyKids U size c1 indent ks) =
        (markupL U c1 ks).map fun inner => tag ++ inner ++ (c%"</" ++ name ++ c%">") := by
      intro c0 c1 tag ks h
      rw [prettyElem]
      simp only [if_pos, Bool.true_or, Bool.not_true, Bool.false_and]
      by_cases he : (prettyKids U size c1 indent ks).isEmpty = true
      · rw [if_pos he]
        rw [List.isEmpty_iff.1 he] at h
        rw [← h]
        simp [catParts]
      · rw [if_neg he, if_neg (by simp), h]
        cases markupL U c1 ks <;> simp
    rw [pretty, markup]
    cases serializeStartTag U { htmlNs := isHtmlNs ns } name attrs with
    | none => rfl
    | some tag =>
      dsimp only
      split
      · rfl
      · by_cases ht : name = c%"template" ∧ tpl = true ∧ (ns = none ∨ ns = some c%"html")
        · rw [if_pos ht, if_pos ((serKids_markup name ns tpl).1 ht)]
          exact key _ _ _ _ (prettyKids_pre U size content none indent)
        · rw [if_neg ht, if_neg (fun h => ht ((serKids_markup name ns tpl).2 h))]
          exact key _ _ _ _ (prettyKids_pre U size kids _ indent)
theorem prettyL_pre (U : Uni) (size : Nat) : ∀ (ns : List Node) (ctx : Option Str) (indent : Nat),
    catParts ((prettyL U size ctx indent true ns).map PPart.child) = markupL U ctx ns
  | [], ctx, indent => rfl
  | n :: ns, ctx, indent => by
    rw [prettyL, markupL, List.map_cons, pretty_pre U size n, ← prettyL_pre U size ns ctx indent]
    cases markup U ctx n <;> rw [catParts]
    cases catParts ((prettyL U size ctx indent true ns).map PPart.child) <;> rfl
theorem prettyKids_pre (U : Uni) (size : Nat) : ∀ (ns : List Node) (ctx : Option Str) (indent : Nat),
    catParts ((prettyKids U size ctx indent ns).map fun k => .child k.pre) = markupL U ctx ns
  | [], ctx, indent => rfl
  | n :: ns, ctx, indent => by
    rw [prettyKids, markupL, List.map_cons]
    dsimp only
    rw [pretty_pre U size n, ← prettyKids_pre U size ns ctx indent]
    cases markup U ctx n <;> rw [catParts]
    cases catParts ((prettyKids U size ctx indent ns).map fun k => .child k.pre) <;> rfl
end

/-! ### Layout -/

theorem wrapLines_eq (pfx o c : Str) (lines : List Str) :
    wrapLines pfx o c lines = pfx ++ (o ++ (((lines.flatMap fun r => '\n' :: r) ++ ('\n' :: pfx)) ++ c)) := by
  rw [wrapLines]
  have : ∀ (ls : List Str) (a z : Str), join ['\n'] (a :: (ls ++ [z])) = a ++ ((ls.flatMap fun r => '\n' :: r) ++ ('\n' :: z)) := by
    intro ls
    induction ls with
    | nil => intro a z; simp [join]
    | cons l ls ih => intro a z; rw [List.cons_append, join, ih]; simp; simp
  rw [this]
  simp

theorem layout_out (hp : PlainCtx U ctx) (size indent : Nat) (special : Bool) (pfx o c : Str) (hx : ∀ x ∈ pfx, U.isSpace x = true)
    (kids : List Kid) (hk : ∀ k ∈ kids, KidOk U ctx k) (s : Str) (h : layout U size indent special pfx o c kids = some s) :
    ∃ inner, s = pfx ++ (o ++ (inner ++ c)) ∧ Out U ctx (kids.map Kid.node) inner := by
  have wrap : ∀ (skip : Bool) (ls : List PLine), LinesOut U ctx ls (kids.map Kid.node) → (renderLines skip ls).map (wrapLines pfx o c) = some s →
      ∃ inner, s = pfx ++ (o ++ (inner ++ c)) ∧ Out U ctx (kids.map Kid.node) inner := by
    intro skip ls hl hs
    obtain ⟨rs, h1, rfl⟩ := Option.map_eq_some_iff.1 hs
    exact ⟨_, wrapLines_eq _ _ _ _, out_post hp _ (fun x h => by
      rcases List.mem_cons.1 h with rfl | h
      · exact sp_newline U
      · exact hx x h) (hl skip rs h1)⟩
  rw [layout] at h
  split at h
  · rename_i ls hls; exact wrap true ls (special_out hp special kids hk ls hls) h
  · split at h
    · rename_i ls hls; exact wrap true ls (separated_out hp indent size special kids hk ls hls) h
    · split at h
      · split at h
        · rename_i ls hls; exact wrap true ls (block_out hp indent size special kids hk ls hls) h
        · split at h
          · rename_i ls hls; exact wrap true ls (spaced_out hp indent size special kids hk ls hls) h
          · obtain ⟨t, h1, rfl⟩ := Option.map_eq_some_iff.1 h
            exact ⟨t, rfl, compact_out hp true kids hk t h1⟩
      · refine wrap false _ (filtered_lines hp _ kids hk fun k _ hq => ?_) h
        exact blankText_out hp (by simpa using hq) [] (by simp)

/-! ### Elements -/

theorem prettyKids_nodes (size : Nat) (ctx : Option Str) (indent : Nat) (ns : List Node) : (prettyKids U size ctx indent ns).map Kid.node = ns := by
  induction ns with
  | nil => rfl
  | cons n ns ih => rw [prettyKids, List.map_cons, ih]

theorem plain_of_ne (ctx : Option Str) (h : ∀ p, ctx = some p → U.lower p ∉ literalTextElements) : PlainCtx U ctx := by
  intro d
  cases ctx with
  | none => rfl
  | some p =>
    rw [serializeTextFor]
    rw [if_neg (by simpa using h p rfl)]

theorem markupL_pre (hp : PlainCtx U ctx) {ns : List Node} {s w : Str} (hw : ∀ c ∈ w, U.isSpace c = true) (K : List Node)
    (h1 : Reformatted U.isSpace ns K) (h2 : markupL U ctx K = some s) (h3 : ReadableL U ns → ReadableL U K) : Out U ctx ns (w ++ s) :=
  out_pre hp w hw ⟨K, h1, h2, h3⟩

theorem readable_single (n : Node) : ReadableL U [n] ↔ Readable U n := by simp [ReadableL]

/-- An element with reformatted children. -/
theorem out_elem {name : Str} {ns : Option Str} {attrs : List (Str × Option Str)} {kids K : List Node} {tpl : Bool} {content : List Node} {tag inner : Str}
    (htag : serializeStartTag U { htmlNs := isHtmlNs ns } name attrs = some tag) (hv : voidElements.contains name = false)
    (ht : ¬ (name = c%"template" ∧ tpl = true ∧ (ns = none ∨ ns = some c%"html"))) (hn : name ∉ preformatted)
    (h1 : Reformatted U.isSpace kids K) (h2 : markupL U (textCtx name ns) K = some inner)
    (h3 : Readable U (.elem name ns attrs kids tpl content) → Readable U (.elem name ns attrs K tpl content)) :
    Out U ctx [.elem name ns attrs kids tpl content] (tag ++ (inner ++ (c%"</" ++ name ++ c%">"))) := by
  refine ⟨[.elem name ns attrs K tpl content], .elem _ _ _ _ _ _ _ _ _ hn h1 .nil, ?_, fun hr => ?_⟩
  · rw [markupL_cons_of (x := tag ++ (inner ++ (c%"</" ++ name ++ c%">"))) (y := []) ?_ rfl, List.append_nil]
    rw [textCtx] at h2
    rw [markup, htag]
    dsimp only
    rw [if_neg (by rw [hv]; simp), if_neg ht, h2]
    simp
  · rw [readable_single] at hr ⊢; exact h3 hr

theorem out_template {name : Str} {ns : Option Str} {attrs : List (Str × Option Str)} {kids K : List Node} {content : List Node} {tag inner : Str}
    (htag : serializeStartTag U { htmlNs := isHtmlNs ns } name attrs = some tag) (hv : voidElements.contains name = false)
    (ht : name = c%"template" ∧ (ns = none ∨ ns = some c%"html")) (hn : name ∉ preformatted)
    (h1 : Reformatted U.isSpace content K) (h2 : markupL U none K = some inner) (h3 : ReadableL U content → ReadableL U K) :
    Out U ctx [.elem name ns attrs kids true content] (tag ++ (inner ++ (c%"</" ++ name ++ c%">"))) := by
  refine ⟨[.elem name ns attrs kids true K], .template _ _ _ _ _ _ _ _ hn h1 .nil, ?_, fun hr => ?_⟩
  · rw [markupL_cons_of (x := tag ++ (inner ++ (c%"</" ++ name ++ c%">"))) (y := []) ?_ rfl, List.append_nil]
    rw [markup, htag]
    dsimp only
    rw [if_neg (by rw [hv]; simp), if_pos ⟨ht.1, rfl, ht.2⟩, h2]
    simp
  · rw [readable_single] at hr ⊢
    rw [Readable] at hr ⊢
    refine ⟨hr.1, hr.2.1, ?_⟩
    have h := hr.2.2
    split at h
    · rename_i hc; rw [if_pos hc]; exact h
    · rename_i hc
      rw [if_neg hc]
      split at h
      · rename_i hc; rw [if_pos hc]; exact h
      · rename_i hc
        rw [if_neg hc, if_neg (by rw [hv]; simp), if_pos ⟨ht.1, rfl, ht.2⟩]
        rw [if_neg (by rw [hv]; simp), if_pos ⟨ht.1, rfl, ht.2⟩] at h
        exact h3 h

/-- The whole element unchanged. -/
theorem out_same {n : Node} {s : Str} (hn : Reformatted U.isSpace [n] [n]) (h : markup U ctx n = some s) : Out U ctx [n] s :=
  ⟨[n], hn, by rw [markupL_cons_of h rfl, List.append_nil], id⟩

theorem all_text_eq (kids : List Node) (h : ∀ k ∈ kids, isTextN k = true) : ∃ ds : List Str, kids = ds.map Node.text ∧ kids.flatMap textData = ds.flatten := by
  induction kids with
  | nil => exact ⟨[], rfl, rfl⟩
  | cons k ks ih =>
    obtain ⟨ds, h1, h2⟩ := ih fun x hx => h x (by simp [hx])
    have := h k (by simp)
    cases k with
    | text d => exact ⟨d :: ds, by rw [h1]; rfl, by rw [List.flatMap_cons, h2]; rfl⟩
    | _ => simp [isTextN] at this

theorem kids_all_text (size : Nat) (c1 : Option Str) (indent : Nat) (ks : List Node) :
    ((prettyKids U size c1 indent ks).all fun k => isTextN k.node) = ks.all isTextN := by
  induction ks with
  | nil => rfl
  | cons n ns ih => rw [prettyKids, List.all_cons, List.all_cons, ih]

theorem kids_text_data (size : Nat) (c1 : Option Str) (indent : Nat) (ks : List Node) :
    ((prettyKids U size c1 indent ks).flatMap fun k => textData k.node) = ks.flatMap textData := by
  induction ks with
  | nil => rfl
  | cons n ns ih => rw [prettyKids, List.flatMap_cons, List.flatMap_cons, ih]

theorem kids_empty (size : Nat) (c1 : Option Str) (indent : Nat) (ks : List Node) :
    (prettyKids U size c1 indent ks).isEmpty = ks.isEmpty := by
  cases ks with
  | nil => rfl
  | cons n ns => rw [prettyKids]; rfl

theorem ws_preformatted (name : Str) : wsPreserving.contains name = true ↔ name ∈ preformatted := by
  simp [wsPreserving, preformatted]
  constructor <;> (intro h; rcases h with h | h | h | h | h <;> simp [h])

theorem prettyElem_out {name : Str} {ns : Option Str} {attrs : List (Str × Option Str)} {kids : List Node} {tpl : Bool} {content : List Node} {tag : Str}
    (htag : serializeStartTag U { htmlNs := isHtmlNs ns } name attrs = some tag) (hv : voidElements.contains name = false)
    (ht : ¬ (name = c%"template" ∧ tpl = true ∧ (ns = none ∨ ns = some c%"html"))) (hp : PlainCtx U ctx) (size indent : Nat)
    (hraw : ns = some c%"html" → U.lower name ∈ literalTextElements → (∀ k ∈ kids, isTextN k = true) ∧ (U.lower name = c%"script" → name = c%"script"))
    (hk : PlainCtx U (textCtx name ns) → ∀ k ∈ prettyKids U size (textCtx name ns) indent kids, KidOk U (textCtx name ns) k)
    (s : Str) (h : prettyElem U size indent false name (textCtx name ns) tag (prettyKids U size (textCtx name ns) indent kids) = some s) :
    Out U ctx [.elem name ns attrs kids tpl content] s := by
  have same : ∀ m, markupL U (textCtx name ns) kids = some m →
      markup U ctx (.elem name ns attrs kids tpl content) = some (tag ++ (m ++ (c%"</" ++ name ++ c%">"))) := by
    intro m hm
    rw [textCtx] at hm
    rw [markup, htag]
    dsimp only
    rw [if_neg (by rw [hv]; simp), if_neg ht, hm]
    simp
  rw [prettyElem] at h
  simp only [Bool.false_or, Bool.false_eq_true, if_false] at h
  rw [kids_empty, kids_all_text, kids_text_data] at h
  by_cases he : kids.isEmpty = true
  · rw [if_pos he] at h
    simp only [Option.some.injEq] at h
    subst h
    refine out_pre hp _ (indent_spaces U _ _) ?_
    have hkn := List.isEmpty_iff.1 he
    subst hkn
    exact out_same (.keep _ _ _ _ _ _ _ _ .nil) (same [] rfl)
  · rw [if_neg he] at h
    by_cases ha : (!wsPreserving.contains name && kids.all isTextN) = true
    · rw [if_pos ha] at h
      simp only [Option.some.injEq] at h
      subst h
      refine out_pre hp _ (indent_spaces U _ _) ?_
      simp only [Bool.and_eq_true, Bool.not_eq_true', List.all_eq_true] at ha
      have hn : name ∉ preformatted := fun hc => by rw [(ws_preformatted name).2 hc] at ha; simp at ha
      obtain ⟨ds, h1, h2⟩ := all_text_eq kids ha.2
      refine out_elem (K := [.text (collapsePretty U (kids.flatMap textData))]) htag hv ht hn ?_ ?_ fun hr => ?_
      · have := Reformatted.text (sp := U.isSpace) ds (collapsePretty U (kids.flatMap textData)) [] [] (by
          rw [h2]; exact (words_collapse _).symm) .nil
        rwa [List.append_nil, ← h1] at this
      · rw [markupL_cons_of (y := []) (by rw [markup]) rfl, List.append_nil]
      · rw [Readable] at hr ⊢
        refine ⟨hr.1, hr.2.1, ?_⟩
        have h := hr.2.2
        split at h
        · rename_i hc
          rw [if_pos hc]
          refine ⟨h.1, h.2.1, Or.inr ⟨_, rfl⟩, fun hs => ?_⟩
          have := (hraw h.2.1 (by rw [hs]; decide)).2 hs
          rw [this] at hn
          exact absurd hn (by decide)
        · rename_i hc
          rw [if_neg hc]
          split at h
          · rename_i hc; rw [if_pos hc]; exact ⟨h.1, fun k hk => ⟨_, List.mem_singleton.1 hk⟩⟩
          · rename_i hc
            rw [if_neg hc, if_neg (by rw [hv]; simp), if_neg ht, readable_single, Readable]
            trivial
    · rw [if_neg ha] at h
      by_cases hw : wsPreserving.contains name = true
      · rw [if_pos hw, prettyKids_pre] at h
        obtain ⟨m, hm, rfl⟩ := Option.map_eq_some_iff.1 h
        exact out_pre hp _ (indent_spaces U _ _) (out_same (.keep _ _ _ _ _ _ _ _ .nil) (same m hm))
      · rw [if_neg hw] at h
        have hall : ¬ ∀ k ∈ kids, isTextN k = true := fun hc => ha (by
          simp only [Bool.and_eq_true, Bool.not_eq_true', List.all_eq_true]
          exact ⟨by simpa using hw, hc⟩)
        have hpc : PlainCtx U (textCtx name ns) := by
          refine plain_of_ne _ fun p hpe hm => ?_
          rw [textCtx] at hpe
          split at hpe
          · rename_i hns
            simp only [Option.some.injEq] at hpe
            subst hpe
            exact hall (hraw hns hm).1
          · cases hpe
        obtain ⟨inner, rfl, K, h1, h2, h3⟩ := layout_out hpc size indent _ _ _ _ (indent_spaces U _ _) _ (hk hpc) s h
        rw [prettyKids_nodes] at h1 h3
        refine out_pre hp _ (indent_spaces U _ _) (out_elem htag hv ht (fun hc => hw ((ws_preformatted name).2 hc)) h1 h2 fun hr => ?_)
        rw [Readable] at hr ⊢
        refine ⟨hr.1, hr.2.1, ?_⟩
        have h := hr.2.2
        split at h
        · rcases h.2.2.1 with hx | ⟨d, hx⟩
          · rw [hx] at he; simp at he
          · exact absurd (by rw [hx]; simp [isTextN]) hall
        · rename_i hc
          rw [if_neg hc]
          split at h
          · exact absurd (fun k hk => by obtain ⟨d, hd⟩ := h.2 k hk; rw [hd]; rfl) hall
          · rename_i hc
            rw [if_neg hc, if_neg (by rw [hv]; simp), if_neg ht]
            have hv2 : ¬ voidElements.contains name = true := by rw [hv]; simp
            rw [if_neg hv2] at h
            exact h3 h

theorem plain_template (ns : Option Str) : PlainCtx U (textCtx c%"template" ns) := by
  refine plain_of_ne _ fun p hp => ?_
  rw [textCtx] at hp
  split at hp
  · simp only [Option.some.injEq] at hp
    subst hp
    rw [U.lower_ascii _ (by decide)]
    decide
  · cases hp

theorem prettyTemplate_out {name : Str} {ns : Option Str} {attrs : List (Str × Option Str)} {kids content : List Node} {tag : Str}
    (htag : serializeStartTag U { htmlNs := isHtmlNs ns } name attrs = some tag) (hv : voidElements.contains name = false)
    (ht : name = c%"template" ∧ (ns = none ∨ ns = some c%"html")) (hp : PlainCtx U ctx) (size indent : Nat)
    (hk : ∀ k ∈ prettyKids U size none indent content, KidOk U none k)
    (s : Str) (h : prettyElem U size indent false name (textCtx name ns) tag (prettyKids U size none indent content) = some s) :
    Out U ctx [.elem name ns attrs kids true content] s := by
  have hw : wsPreserving.contains name = false := by rw [ht.1]; decide
  have hn : name ∉ preformatted := by rw [ht.1]; decide
  have hpt : PlainCtx U (textCtx name ns) := by rw [ht.1]; exact plain_template ns
  rw [prettyElem, hw] at h
  simp only [Bool.or_false, Bool.false_eq_true, if_false, Bool.not_false, Bool.true_and] at h
  rw [kids_empty, kids_all_text, kids_text_data] at h
  by_cases he : content.isEmpty = true
  · rw [if_pos he] at h
    simp only [Option.some.injEq] at h
    subst h
    refine out_pre hp _ (indent_spaces U _ _) ?_
    have hkn := List.isEmpty_iff.1 he
    subst hkn
    exact out_template (inner := []) htag hv ht hn .nil rfl id
  · rw [if_neg he] at h
    by_cases ha : content.all isTextN = true
    · rw [if_pos ha] at h
      simp only [Option.some.injEq] at h
      subst h
      refine out_pre hp _ (indent_spaces U _ _) ?_
      obtain ⟨ds, h1, h2⟩ := all_text_eq content (by simpa using ha)
      refine out_template (K := [.text (collapsePretty U (content.flatMap textData))]) htag hv ht hn ?_ ?_ fun hr => ?_
      · have := Reformatted.text (sp := U.isSpace) ds (collapsePretty U (content.flatMap textData)) [] [] (by
          rw [h2]; exact (words_collapse _).symm) .nil
        rwa [List.append_nil, ← h1] at this
      · rw [markupL_cons_of (y := []) (by rw [markup]) rfl, List.append_nil, hpt]; rfl
      · rw [readable_single, Readable]; trivial
    · rw [if_neg ha] at h
      obtain ⟨inner, rfl, K, h1, h2, h3⟩ := layout_out (plain_none U) size indent _ _ _ _ (indent_spaces U _ _) _ hk s h
      rw [prettyKids_nodes] at h1 h3
      exact out_pre hp _ (indent_spaces U _ _) (out_template htag hv ht hn h1 h2 h3)

theorem join_out (hp : PlainCtx U ctx) (fe : Bool) : ∀ (l : List (Node × Str)), (∀ p ∈ l, Out U ctx [p.1] p.2) →
    Out U ctx (l.map Prod.fst) (join ['\n'] ((l.map Prod.snd).filter fun s => !fe || !s.isEmpty)) := by
  intro l
  induction l with
  | nil => intro _; exact out_empty
  | cons p l ih =>
    intro h
    have ih := ih fun x hx => h x (by simp [hx])
    have h0 := h p (by simp)
    rw [List.map_cons, List.map_cons]
    by_cases hq : (!fe || !p.2.isEmpty) = true
    · rw [List.filter_cons, if_pos hq]
      cases hf : (l.map Prod.snd).filter (fun s => !fe || !s.isEmpty) with
      | nil =>
        rw [hf] at ih
        have := h0.append ih
        simpa [join] using this
      | cons y ys =>
        rw [hf] at ih
        have := (out_post hp ['\n'] (by simp [sp_newline]) h0).append ih
        rw [join]
        · exact this
        · simp
    · rw [List.filter_cons, if_neg hq]
      have he : p.2 = [] := by
        simp only [Bool.or_eq_true, Bool.not_eq_true', not_or] at hq
        simpa using hq.2
      rw [he] at h0
      exact h0.append ih

theorem joinKids_out (hp : PlainCtx U ctx) (size indent : Nat) (fe : Bool) (ns : List Node) (h : ∀ n ∈ ns, ∀ s, pretty U size ctx indent false n = some s → Out U ctx [n] s)
    (s : Str) (hs : joinKids ['\n'] fe (prettyL U size ctx indent false ns) = some s) : Out U ctx ns s := by
  have key : ∀ ns : List Node, (∀ n ∈ ns, ∀ s, pretty U size ctx indent false n = some s → Out U ctx [n] s) →
      (prettyL U size ctx indent false ns).all Option.isSome = true → ∃ l : List (Node × Str), l.map Prod.fst = ns ∧
      l.map Prod.snd = (prettyL U size ctx indent false ns).filterMap id ∧ ∀ p ∈ l, Out U ctx [p.1] p.2 := by
    intro ns
    induction ns with
    | nil => intro _ _; exact ⟨[], rfl, rfl, by simp⟩
    | cons n ns ih =>
      intro h ha
      rw [prettyL, List.all_cons, Bool.and_eq_true] at ha
      obtain ⟨l, h1, h2, h3⟩ := ih (fun x hx => h x (by simp [hx])) ha.2
      obtain ⟨t, ht⟩ := Option.isSome_iff_exists.1 ha.1
      refine ⟨(n, t) :: l, by rw [List.map_cons, h1], by rw [List.map_cons, h2, prettyL, ht]; simp, fun p hp => ?_⟩
      rcases List.mem_cons.1 hp with rfl | hp
      · exact h n (by simp) t ht
      · exact h3 p hp
  rw [joinKids] at hs
  split at hs
  · rename_i ha
    simp only [Option.some.injEq] at hs
    subst hs
    obtain ⟨l, h1, h2, h3⟩ := key ns h ha
    rw [← h2]
    conv => arg 3; rw [← h1]
    exact join_out hp fe l h3
  · cases hs

mutual
theorem pretty_out (U : Uni) (size : Nat) : ∀ (n : Node), RawIsText U n → ∀ (ctx : Option Str), PlainCtx U ctx → ∀ (indent : Nat) (s : Str),
    pretty U size ctx indent false n = some s → Out U ctx [n] s
  | .text d, _, ctx, hp, indent, s, h => by
    rw [pretty, if_neg (by simp)] at h
    split at h
    · rename_i hb
      simp only [Option.some.injEq] at h
      subst h
      exact out_blank hp d [] (blankStr_spaces hb) (by simp)
    · simp only [Option.some.injEq] at h
      subst h
      rw [hp]
      exact out_pre hp _ (indent_spaces U _ _) (out_text hp d _ (words_strip _ (fun _ h => h) d).symm)
  | .comment d, _, ctx, hp, indent, s, h => by
    rw [pretty, if_neg (by simp)] at h
    simp only [Option.some.injEq] at h
    subst h
    exact out_pre hp _ (indent_spaces U _ _) (out_same (.comment _ _ _ .nil) (by rw [markup]))
  | .pi d, _, ctx, hp, indent, s, h => by
    rw [pretty, if_neg (by simp)] at h
    simp only [Option.some.injEq] at h
    subst h
    exact out_pre hp _ (indent_spaces U _ _) (out_same (.pi _ _ _ .nil) (by rw [markup]))
  | .doctype a b c, _, ctx, hp, indent, s, h => by
    rw [pretty, if_neg (by simp)] at h
    simp only [Option.some.injEq] at h
    subst h
    exact out_pre hp _ (indent_spaces U _ _) (out_same (.doctype _ _ _ _ _ .nil) (by rw [markup]))
  | .doc kids, hr, ctx, hp, indent, s, h => by
    rw [pretty, if_neg (by simp)] at h
    rw [RawIsText] at hr
    exact Out.fragment hp (joinKids_out (plain_none U) size indent true kids
      (fun n hn s hs => prettyL_out U size kids hr none (plain_none U) n hn indent s hs) s h)
  | .elem name ns attrs kids tpl content, hr, ctx, hp, indent, s, h => by
    rw [pretty] at h
    rw [RawIsText] at hr
    cases htag : serializeStartTag U { htmlNs := isHtmlNs ns } name attrs with
    | none => rw [htag] at h; cases h
    | some tag =>
      rw [htag] at h
      dsimp only at h
      by_cases hv : voidElements.contains name = true
      · rw [if_pos hv] at h
        simp only [Bool.false_eq_true, if_false, Option.some.injEq] at h
        subst h
        refine out_pre hp _ (indent_spaces U _ _) (out_same (.keep _ _ _ _ _ _ _ _ .nil) ?_)
        rw [markup, htag]
        dsimp only
        rw [if_pos hv]
      · rw [if_neg hv] at h
        have hv' : voidElements.contains name = false := by simpa using hv
        by_cases ht : name = c%"template" ∧ tpl = true ∧ (ns = none ∨ ns = some c%"html")
        · rw [if_pos ((serKids_markup name ns tpl).1 ht)] at h
          obtain ⟨t1, t2, t3⟩ := ht
          subst t2
          exact prettyTemplate_out htag hv' ⟨t1, t3⟩ hp size indent
            (prettyKids_ok U size content hr.2.2 none (plain_none U) indent) s h
        · rw [if_neg fun hc => ht ((serKids_markup name ns tpl).2 hc)] at h
          refine prettyElem_out htag hv' ht hp size indent (fun hns hm => ?_)
            (fun hpc => prettyKids_ok U size kids hr.2.1 _ hpc indent) s h
          obtain ⟨g1, g2⟩ := hr.1 ⟨hns, by simpa [literalTextElements] using hm⟩
          exact ⟨fun k hk => by obtain ⟨d, rfl⟩ := g1 k hk; rfl, g2⟩
theorem prettyL_out (U : Uni) (size : Nat) : ∀ (ns : List Node), RawIsTextL U ns → ∀ (ctx : Option Str), PlainCtx U ctx → ∀ n ∈ ns,
    ∀ (indent : Nat) (s : Str), pretty U size ctx indent false n = some s → Out U ctx [n] s
  | [], _, _, _, _, hn => by simp at hn
  | n :: ns, hr, ctx, hp, m, hm => by
    rw [RawIsTextL] at hr
    have h1 := pretty_out U size n hr.1 ctx hp
    have h2 := prettyL_out U size ns hr.2 ctx hp
    rcases List.mem_cons.1 hm with rfl | hm
    · exact h1
    · exact h2 m hm
theorem prettyKids_ok (U : Uni) (size : Nat) : ∀ (ns : List Node), RawIsTextL U ns → ∀ (ctx : Option Str), PlainCtx U ctx → ∀ (indent : Nat),
    ∀ k ∈ prettyKids U size ctx indent ns, KidOk U ctx k
  | [], _, _, _, _, _, hn => by rw [prettyKids] at hn; simp at hn
  | n :: ns, hr, ctx, hp, indent, k, hk => by
    rw [RawIsTextL] at hr
    have h1 := pretty_out U size n hr.1 ctx hp
    have h2 := prettyKids_ok U size ns hr.2 ctx hp indent
    rw [prettyKids] at hk
    rcases List.mem_cons.1 hk with rfl | hk
    · exact ⟨h1 (indent + 1), h1 0⟩
    · exact h2 k hk
end

end JH
