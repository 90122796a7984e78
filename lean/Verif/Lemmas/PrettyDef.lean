import Verif.Lemmas.PrettyMain

/-! Lemmas for C73: pretty printing refuses exactly what compact serialization refuses. -/
namespace JH
open Spec

variable {U : Uni}

/-- The part has a text. -/
def PPart.good : PPart → Prop
  | .lit _ => True
  | .child s => s.isSome = true

/-- All parts of all lines have a text. -/
def GoodLines (ls : List PLine) : Prop := ∀ l ∈ ls, ∀ p ∈ l.parts, p.good

theorem catParts_good (ps : List PPart) (h : ∀ p ∈ ps, p.good) : (catParts ps).isSome = true := by
  induction ps with
  | nil => rfl
  | cons p ps ih =>
    have ih := ih fun x hx => h x (by simp [hx])
    match p with
    | .lit s => rw [catParts, Option.isSome_map]; exact ih
    | .child none => exact absurd (h (.child none) (by simp)) (by simp [PPart.good])
    | .child (some s) => rw [catParts, Option.isSome_map]; exact ih

theorem renderLines_good (skip : Bool) (ls : List PLine) (h : GoodLines ls) : (renderLines skip ls).isSome = true := by
  induction ls with
  | nil => rfl
  | cons l ls ih =>
    obtain ⟨r, hr⟩ := Option.isSome_iff_exists.1 (ih fun x hx => h x (by simp [hx]))
    obtain ⟨s, hs⟩ := Option.isSome_iff_exists.1 (catParts_good l.parts (h l (by simp)))
    rw [renderLines, hs, hr]; rfl

theorem goodLines_nil : GoodLines [] := fun l hl => by simp at hl
theorem goodLines_cons {l : PLine} {ls : List PLine} (h : ∀ p ∈ l.parts, p.good) (hs : GoodLines ls) : GoodLines (l :: ls) := fun x hx => by
  rcases List.mem_cons.1 hx with rfl | hx
  · exact h
  · exact hs x hx
theorem goodLines_append {a b : List PLine} (h : GoodLines a) (hs : GoodLines b) : GoodLines (a ++ b) := fun x hx => by
  rcases List.mem_append.1 hx with hx | hx
  · exact h x hx
  · exact hs x hx

/-- All texts of the child are there. -/
def Kid.good (k : Kid) : Prop := k.deep.isSome = true ∧ k.flat.isSome = true ∧ k.pre.isSome = true

theorem good_map (kids l : List Kid) (h : ∀ k ∈ kids, k.good) (hl : ∀ k ∈ l, k ∈ kids) :
    GoodLines (l.map fun k => ⟨[], [.child k.deep], false⟩) := by
  intro x hx p hp
  obtain ⟨k, hk, rfl⟩ := List.mem_map.1 hx
  simp only [List.mem_singleton] at hp
  subst hp
  exact (h k (hl k hk)).1

theorem good_flush (pre : Str) (acc : List PPart) (h : ∀ p ∈ acc, p.good) : GoodLines (flushParts pre acc) := by
  rw [flushParts]
  split
  · exact goodLines_nil
  · exact goodLines_cons h goodLines_nil

theorem good_element (pre : Str) (kids : List Kid) (h : ∀ k ∈ kids, k.good) : GoodLines (elementLines U pre kids) := by
  induction kids with
  | nil => exact goodLines_nil
  | cons k ks ih =>
    have ih := ih fun x hx => h x (by simp [hx])
    rw [elementLines]
    split
    · refine goodLines_append ?_ ih
      split
      · exact goodLines_nil
      · exact goodLines_cons (by simp [PPart.good]) goodLines_nil
    · refine goodLines_append ?_ ih
      split
      · exact goodLines_cons (by simpa [PPart.good] using (h k (by simp)).1) goodLines_nil
      · exact goodLines_nil

theorem good_mixed (pre : Str) (kids : List Kid) (h : ∀ k ∈ kids, k.good) : ∀ (first : Bool) (acc : List PPart), (∀ p ∈ acc, p.good) →
    GoodLines (mixedLines U pre first acc kids) := by
  induction kids with
  | nil => intro _ acc ha; rw [mixedLines]; exact good_flush pre acc ha
  | cons k ks ih =>
    intro first acc ha
    have ih := ih fun x hx => h x (by simp [hx])
    have hk := h k (by simp)
    have lit : ∀ p : PPart, p.good → ∀ q ∈ acc ++ [p], q.good := fun p hp q hq => by
      rcases List.mem_append.1 hq with hq | hq
      · exact ha q hq
      · rw [List.mem_singleton.1 hq]; exact hp
    rw [mixedLines]
    split
    · split
      · split
        · exact ih _ _ ha
        · split
          · exact goodLines_append (good_flush pre acc ha) (ih _ _ (by simp))
          · exact ih _ _ (lit _ trivial)
      · exact ih _ _ (lit _ trivial)
    · split
      · exact goodLines_append (good_flush pre acc ha) (goodLines_cons (by simpa [PPart.good] using hk.1) (ih _ _ (by simp)))
      · exact ih _ _ (lit _ hk.2.1)

theorem good_compact (kids : List Kid) (h : ∀ k ∈ kids, k.good) : ∀ (first : Bool), ∀ p ∈ compactParts U first kids, p.good := by
  induction kids with
  | nil => intro _ p hp; simp [compactParts] at hp
  | cons k ks ih =>
    intro first p hp
    have ih := ih fun x hx => h x (by simp [hx])
    rw [compactParts] at hp
    split at hp
    · split at hp
      · exact ih _ p hp
      · split at hp
        · rcases List.mem_cons.1 hp with rfl | hp
          · trivial
          · exact ih _ p hp
        · rcases List.mem_cons.1 hp with rfl | hp
          · trivial
          · exact ih _ p hp
    · rcases List.mem_cons.1 hp with rfl | hp
      · exact (h k (by simp)).2.1
      · exact ih _ p hp

theorem fmtRuns_mem (Q : Kid → Prop) : ∀ (items : List (Option Kid)) (cur : List Kid), (∀ k ∈ cur, Q k) → (∀ k, some k ∈ items → Q k) →
    ∀ r ∈ fmtRuns cur items, ∀ k ∈ r, Q k := by
  intro items
  induction items with
  | nil => intro cur hc _ r hr; simp only [fmtRuns, List.mem_singleton] at hr; subst hr; exact hc
  | cons i items ih =>
    intro cur hc hi r hr
    cases i with
    | none =>
      rw [fmtRuns] at hr
      rcases List.mem_cons.1 hr with rfl | hr
      · exact hc
      · exact ih [] (by simp) (fun k hk => hi k (by simp [hk])) r hr
    | some k0 =>
      rw [fmtRuns] at hr
      refine ih _ (fun k hk => ?_) (fun k hk => hi k (by simp [hk])) r hr
      rcases List.mem_append.1 hk with hk | hk
      · exact hc k hk
      · rw [List.mem_singleton.1 hk]; exact hi k0 (by simp)

theorem fmtItems_mem (kids : List Kid) : ∀ (last : Bool) (k : Kid), some k ∈ fmtItems U last kids → k ∈ kids := by
  induction kids with
  | nil => intro _ k h; simp [fmtItems] at h
  | cons x ks ih =>
    intro last k h
    rw [fmtItems] at h
    split at h
    · split at h
      · exact List.mem_cons_of_mem _ (ih _ k h)
      · exact List.mem_cons_of_mem _ (ih _ k (by simpa using h))
    · rcases List.mem_cons.1 h with h | h
      · simp only [Option.some.injEq] at h; simp [h]
      · exact List.mem_cons_of_mem _ (ih _ k h)

theorem good_separated (indent size : Nat) (kids : List Kid) (h : ∀ k ∈ kids, k.good) : GoodLines ((runsOf U kids).map (runLine U indent size)) := by
  intro l hl
  obtain ⟨run, hr, rfl⟩ := List.mem_map.1 hl
  rw [runs_eq] at hr
  have hg : ∀ k ∈ run, k.good := fmtRuns_mem Kid.good _ [] (by simp) (fun k hk => h k (fmtItems_mem kids _ k hk)) run (List.mem_filter.1 hr).1
  have inl : ∀ p ∈ run.map (runPart U), p.good := by
    intro p hp
    obtain ⟨k, hk, rfl⟩ := List.mem_map.1 hp
    rw [runPart]
    split
    · trivial
    · exact (hg k hk).2.1
  match run, hg, inl with
  | [], _, inl => exact inl
  | [k], hg, inl =>
    rw [runLine]
    split
    · exact inl
    · simpa [PPart.good] using (hg k (by simp)).1
  | _ :: _ :: _, _, inl => exact inl

theorem layout_good (size indent : Nat) (special : Bool) (pfx o c : Str) (kids : List Kid) (h : ∀ k ∈ kids, k.good) :
    (layout U size indent special pfx o c kids).isSome = true := by
  rw [layout]
  split
  · rename_i ls hls
    rw [Option.isSome_map]
    refine renderLines_good _ _ ?_
    rw [specialLines] at hls
    split at hls
    · simp only [Option.some.injEq] at hls
      subst hls
      exact good_map kids _ h fun k hk => (List.mem_filter.1 hk).1
    · cases hls
  · split
    · rename_i ls hls
      rw [Option.isSome_map]
      refine renderLines_good _ _ ?_
      rw [separatedLines] at hls
      split at hls
      · simp only [Option.some.injEq] at hls
        subst hls
        exact good_separated indent size kids h
      · cases hls
    · split
      · split
        · rename_i ls hls
          rw [Option.isSome_map]
          refine renderLines_good _ _ ?_
          rw [blockLines] at hls
          split at hls
          · simp only [Option.some.injEq] at hls
            subst hls
            exact good_mixed _ kids h true [] (by simp)
          · cases hls
        · split
          · rename_i ls hls
            rw [Option.isSome_map]
            refine renderLines_good _ _ ?_
            rw [spacedLines] at hls
            split at hls
            · simp only [Option.some.injEq] at hls
              subst hls
              exact good_element _ kids h
            · cases hls
          · rw [Option.isSome_map]; exact catParts_good _ (good_compact kids h true)
      · rw [Option.isSome_map]
        exact renderLines_good _ _ (good_map kids _ h fun k hk => (List.mem_filter.1 hk).1)

theorem prettyElem_good (size indent : Nat) (inPre : Bool) (name : Str) (ctx : Option Str) (o : Str) (kids : List Kid) (h : ∀ k ∈ kids, k.good) :
    (prettyElem U size indent inPre name ctx o kids).isSome = true := by
  rw [prettyElem]
  split
  · rfl
  · split
    · rfl
    · split
      · rw [Option.isSome_map]
        refine catParts_good _ fun p hp => ?_
        obtain ⟨k, hk, rfl⟩ := List.mem_map.1 hp
        exact (h k hk).2.2
      · exact layout_good _ _ _ _ _ _ _ h

theorem markupL_all {ctx : Option Str} {ns : List Node} (h : (markupL U ctx ns).isSome = true) : ∀ n ∈ ns, (markup U ctx n).isSome = true := by
  induction ns with
  | nil => intro n hn; simp at hn
  | cons n ns ih =>
    obtain ⟨m, hm⟩ := Option.isSome_iff_exists.1 h
    obtain ⟨x, y, h1, h2, _⟩ := markupL_cons_some hm
    intro k hk
    rcases List.mem_cons.1 hk with rfl | hk
    · rw [h1]; rfl
    · exact ih (by rw [h2]; rfl) k hk

theorem markup_some_ctx (c1 c2 : Option Str) (n : Node) (h : (markup U c1 n).isSome = true) : (markup U c2 n).isSome = true := by
  cases n with
  | text d => rw [markup]; rfl
  | _ => rw [markup] at h ⊢; exact h

theorem joinKids_good (sep : Str) (fe : Bool) (rs : List (Option Str)) (h : ∀ r ∈ rs, r.isSome = true) : (joinKids sep fe rs).isSome = true := by
  rw [joinKids, if_pos (by simpa [List.all_eq_true] using h)]; rfl

mutual
theorem pretty_good (U : Uni) (size : Nat) : ∀ (n : Node) (c0 : Option Str), (markup U c0 n).isSome = true → ∀ (ctx : Option Str) (indent : Nat) (inPre : Bool),
    (pretty U size ctx indent inPre n).isSome = true
  | .text d, _, _, ctx, indent, inPre => by
    rw [pretty]
    split
    · rfl
    · split <;> rfl
  | .comment d, _, _, ctx, indent, inPre => by rw [pretty]; rfl
  | .pi d, _, _, ctx, indent, inPre => by rw [pretty]; rfl
  | .doctype a b c, _, _, ctx, indent, inPre => by rw [pretty]; rfl
  | .doc kids, c0, h, ctx, indent, inPre => by
    rw [markup] at h
    rw [pretty]
    exact joinKids_good _ _ _ (prettyL_good U size kids none h none indent inPre)
  | .elem name ns attrs kids tpl content, c0, h, ctx, indent, inPre => by
    rw [markup] at h
    rw [pretty]
    cases htag : serializeStartTag U { htmlNs := isHtmlNs ns } name attrs with
    | none => rw [htag] at h; cases h
    | some tag =>
      rw [htag] at h
      dsimp only at h ⊢
      split
      · rfl
      · rename_i hv
        rw [if_neg hv] at h
        by_cases ht : name = c%"template" ∧ tpl = true ∧ (ns = none ∨ ns = some c%"html")
        · rw [if_pos ((serKids_markup name ns tpl).1 ht)]
          rw [if_pos ht, Option.isSome_map] at h
          exact prettyElem_good _ _ _ _ _ _ _ (prettyKids_good U size content none h none indent)
        · rw [if_neg fun hc => ht ((serKids_markup name ns tpl).2 hc)]
          rw [if_neg ht, Option.isSome_map] at h
          exact prettyElem_good _ _ _ _ _ _ _ (prettyKids_good U size kids _ h _ indent)
theorem prettyL_good (U : Uni) (size : Nat) : ∀ (ns : List Node) (c0 : Option Str), (markupL U c0 ns).isSome = true → ∀ (ctx : Option Str) (indent : Nat)
    (inPre : Bool), ∀ r ∈ prettyL U size ctx indent inPre ns, r.isSome = true
  | [], _, _, _, _, _, r, hr => by rw [prettyL] at hr; simp at hr
  | n :: ns, c0, h, ctx, indent, inPre, r, hr => by
    have h1 := markupL_all h
    have h2 : (markupL U c0 ns).isSome = true := by
      obtain ⟨m, hm⟩ := Option.isSome_iff_exists.1 h
      obtain ⟨x, y, _, h2, _⟩ := markupL_cons_some hm
      rw [h2]; rfl
    have g1 := pretty_good U size n c0 (h1 n (by simp)) ctx indent inPre
    have g2 := prettyL_good U size ns c0 h2 ctx indent inPre
    rw [prettyL] at hr
    rcases List.mem_cons.1 hr with rfl | hr
    · exact g1
    · exact g2 r hr
theorem prettyKids_good (U : Uni) (size : Nat) : ∀ (ns : List Node) (c0 : Option Str), (markupL U c0 ns).isSome = true → ∀ (ctx : Option Str) (indent : Nat),
    ∀ k ∈ prettyKids U size ctx indent ns, k.good
  | [], _, _, _, _, k, hk => by rw [prettyKids] at hk; simp at hk
  | n :: ns, c0, h, ctx, indent, k, hk => by
    have h1 := markupL_all h
    have h2 : (markupL U c0 ns).isSome = true := by
      obtain ⟨m, hm⟩ := Option.isSome_iff_exists.1 h
      obtain ⟨x, y, _, h2, _⟩ := markupL_cons_some hm
      rw [h2]; rfl
    have g1 := pretty_good U size n c0 (h1 n (by simp)) ctx
    have g2 := prettyKids_good U size ns c0 h2 ctx indent
    rw [prettyKids] at hk
    rcases List.mem_cons.1 hk with rfl | hk
    · exact ⟨g1 _ _, g1 _ _, g1 _ _⟩
    · exact g2 k hk
end

/-- Reformatting does not change which names are refused. -/
theorem reformatted_some {sp : Char → Bool} {a b : List Node} (h : Reformatted sp a b) : ∀ (c1 c2 : Option Str), (markupL U c1 b).isSome = true → (markupL U c2 a).isSome = true := by
  have cons : ∀ (n n' : Node) (a b : List Node), (∀ c1 c2, (markup U c1 n').isSome = true → (markup U c2 n).isSome = true) →
      (∀ c1 c2, (markupL U c1 b).isSome = true → (markupL U c2 a).isSome = true) → ∀ c1 c2, (markupL U c1 (n' :: b)).isSome = true → (markupL U c2 (n :: a)).isSome = true := by
    intro n n' a b h1 h2 c1 c2 h
    obtain ⟨m, hm⟩ := Option.isSome_iff_exists.1 h
    obtain ⟨x, y, e1, e2, _⟩ := markupL_cons_some hm
    obtain ⟨p, hp⟩ := Option.isSome_iff_exists.1 (h1 c1 c2 (by rw [e1]; rfl))
    obtain ⟨q, hq⟩ := Option.isSome_iff_exists.1 (h2 c1 c2 (by rw [e2]; rfl))
    rw [markupL_cons_of hp hq]; rfl
  induction h with
  | nil => intro c1 c2 _; rfl
  | text ds d a b hw _ ih =>
    intro c1 c2 h
    obtain ⟨m, hm⟩ := Option.isSome_iff_exists.1 h
    obtain ⟨x, y, e1, e2, _⟩ := markupL_cons_some hm
    have := ih c1 c2 (by rw [e2]; rfl)
    induction ds with
    | nil => exact this
    | cons e ds ihd =>
      obtain ⟨q, hq⟩ := Option.isSome_iff_exists.1 (show (markupL U c2 (ds.map Node.text ++ a)).isSome = true from by
        clear hw ihd
        induction ds with
        | nil => exact this
        | cons f ds ih2 =>
          obtain ⟨q, hq⟩ := Option.isSome_iff_exists.1 ih2
          rw [List.map_cons, List.cons_append, markupL_cons_of (n := .text f) (by rw [markup]) hq]; rfl)
      rw [List.map_cons, List.cons_append, markupL_cons_of (n := .text e) (by rw [markup]) hq]; rfl
  | comment t a b _ ih => exact cons _ _ _ _ (fun c1 c2 => markup_some_ctx c1 c2 _) ih
  | pi t a b _ ih => exact cons _ _ _ _ (fun c1 c2 => markup_some_ctx c1 c2 _) ih
  | doctype n p s a b _ ih => exact cons _ _ _ _ (fun c1 c2 => markup_some_ctx c1 c2 _) ih
  | fragment kids ks a b hk _ ihk ih =>
    intro c1 c2 h
    obtain ⟨m, hm⟩ := Option.isSome_iff_exists.1 h
    obtain ⟨x, y, e1, e2, _⟩ := markupL_append_inv hm
    obtain ⟨p, hp⟩ := Option.isSome_iff_exists.1 (ihk c1 none (by rw [e1]; rfl))
    obtain ⟨q, hq⟩ := Option.isSome_iff_exists.1 (ih c1 c2 (by rw [e2]; rfl))
    rw [markupL_cons_of (n := .doc kids) (by rw [markup, hp]) hq]; rfl
  | keep n ns at' kids tpl content a b _ ih => exact cons _ _ _ _ (fun c1 c2 => markup_some_ctx c1 c2 _) ih
  | elem n ns at' kids kids' tpl content a b hn hk _ ihk ih =>
    refine cons _ _ _ _ (fun c1 c2 h => ?_) ih
    rw [markup] at h ⊢
    split at h
    · cases h
    · rename_i tag htag
      split at h
      · rename_i hv; rw [if_pos hv]; rfl
      · rename_i hv
        rw [if_neg hv]
        split at h
        · rename_i ht; rw [if_pos ht]; exact h
        · rename_i ht
          rw [if_neg ht, Option.isSome_map]
          rw [Option.isSome_map] at h
          exact ihk _ _ h
  | template n ns at' kids content content' a b hn hc _ ihk ih =>
    refine cons _ _ _ _ (fun c1 c2 h => ?_) ih
    rw [markup] at h ⊢
    split at h
    · cases h
    · rename_i tag htag
      split at h
      · rename_i hv; rw [if_pos hv]; rfl
      · rename_i hv
        rw [if_neg hv]
        split at h
        · rename_i ht
          rw [if_pos ht, Option.isSome_map]
          rw [Option.isSome_map] at h
          exact ihk _ _ h
        · rename_i ht
          rw [if_neg ht]; exact h

end JH
