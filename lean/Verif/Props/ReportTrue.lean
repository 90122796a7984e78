import Verif.Props.ReportQuiet
/-! Every finding of the sanitizer is right (C99). -/
namespace JH
open Spec

/-- The node has a proper name and occurs in `l0`. -/
def SrcIn (l0 : List Node) (m : Node) : Prop := Named m ∧ Reach m l0

/-- An element of the source with this name. -/
def SrcName (l0 : List Node) : Node → Prop
  | .elem name _ _ _ _ _ => ∃ ns as kids tpl content, Reach (.elem name ns as kids tpl content) l0
  | _ => True

mutual
theorem srcIn_all (l0 : List Node) : ∀ n, Everywhere Named n → (∀ x, Reach x [n] → Reach x l0) → Everywhere (SrcIn l0) n
  | .elem name ns as kids tpl content, h, hr => by
    simp only [Everywhere] at h ⊢
    have hn : name.head? ≠ some '#' := h.1.1
    refine ⟨⟨h.1, hr _ (.here (List.mem_singleton.2 rfl))⟩,
      srcInL_all l0 kids h.2.1 fun x hx => hr x (.kid (List.mem_singleton.2 rfl) hn hx), fun e => ?_⟩
    subst e
    exact srcInL_all l0 content (h.2.2 rfl) fun x hx => hr x (.content (List.mem_singleton.2 rfl) hn hx)
  | .doc kids, h, hr => by
    simp only [Everywhere] at h ⊢
    exact ⟨⟨trivial, hr _ (.here (List.mem_singleton.2 rfl))⟩, srcInL_all l0 kids h.2 fun x hx => hr x (.doc (List.mem_singleton.2 rfl) hx)⟩
  | .text _, _, hr => ⟨trivial, hr _ (.here (List.mem_singleton.2 rfl))⟩
  | .comment _, _, hr => ⟨trivial, hr _ (.here (List.mem_singleton.2 rfl))⟩
  | .pi _, _, hr => ⟨trivial, hr _ (.here (List.mem_singleton.2 rfl))⟩
  | .doctype _ _ _, _, hr => ⟨trivial, hr _ (.here (List.mem_singleton.2 rfl))⟩
theorem srcInL_all (l0 : List Node) : ∀ l, EverywhereL Named l → (∀ x, Reach x l → Reach x l0) → EverywhereL (SrcIn l0) l
  | [], _, _ => trivial
  | n :: l, h, hr => by
    simp only [EverywhereL] at h ⊢
    exact ⟨srcIn_all l0 n h.1 fun x hx => hr x (hx.mono (by simp)), srcInL_all l0 l h.2 fun x hx => hr x (hx.mono (fun y hy => by simp [hy]))⟩
end

/-! ### Attributes -/

theorem allowedFor_spec (U : Uni) (C : SanCfg) (hK : SanCfg.Keyed U C.allowedAttrs) (name k : Str)
    (h : AttrAllowed U.lower C.allowedAttrs C.forceRel name k) : k ∈ allowedFor U (effAttrs C) name := by
  have hK' := effAttrs_keyed U C hK
  rcases h with ⟨p, hp, hn, hk⟩ | ⟨rfl, ha, hr⟩
  · obtain ⟨q, hq, e, hkq⟩ := effAttrs_super C p hp k hk
    refine allowedFor_complete U _ hK' name k q hq ?_ hkq
    rcases hn with h | h
    · exact .inl (by rw [e, h])
    · exact .inr (by rw [e, ← h, hK.low p hp])
  · obtain ⟨q, hq, hn, hkq⟩ := effAttrs_rel C hr
    refine allowedFor_complete U _ hK' name _ q hq ?_ hkq
    rcases hn with h | h
    · exact .inl h
    · exact .inr (by rw [h, ha])

theorem attrsF_true (S : SanEnv) (C : SanCfg) (hK : SanCfg.Keyed S.E.U C.allowedAttrs) (l0 : List Node) (name : Str) (ns : Option Str)
    (as : Attrs) (kids : List Node) (tpl : Bool) (content : List Node) (hr : Reach (.elem name ns as kids tpl content) l0)
    (ha : S.E.U.lower name ∈ C.allowedTags) : ∀ f ∈ attrsF S C name as, Justified S.E.U.lower C l0 f := by
  intro f hf
  have key : ∀ A, (∀ q ∈ A, ∃ p ∈ as, S.E.U.lower p.1 = S.E.U.lower q.1) → ∀ f ∈ editFindings S C name A, Justified S.E.U.lower C l0 f := by
    intro A hA f hf
    have h1 : ∀ q ∈ allowlistAttrs S.E.U (effAttrs C) name A, ∃ p ∈ as, S.E.U.lower p.1 = S.E.U.lower q.1 := by
      intro q hq
      obtain ⟨p, hp, e⟩ := (post_keys S C name as).2.1 A q hq
      obtain ⟨p2, hp2, e2⟩ := hA p hp
      exact ⟨p2, hp2, e2.trans e⟩
    have h2 : ∀ q ∈ dropUrlAttrs S.E C.url name (allowlistAttrs S.E.U (effAttrs C) name A), ∃ p ∈ as, S.E.U.lower p.1 = S.E.U.lower q.1 := by
      intro q hq
      obtain ⟨p, hp, e⟩ := (post_keys S C name as).2.2 _ q hq
      obtain ⟨p2, hp2, e2⟩ := h1 p hp
      exact ⟨p2, hp2, e2.trans e⟩
    unfold editFindings at hf
    rcases List.mem_append.1 hf with hf | hf
    · rcases List.mem_append.1 hf with hf | hf
      · unfold allowFindings at hf
        dsimp only at hf
        split at hf
        · simp at hf
        · obtain ⟨q, hq, hf⟩ := List.mem_flatMap.1 hf
          split at hf
          · simp at hf
          · split at hf
            · simp at hf
            · split at hf
              · simp at hf
              · rename_i hc
                obtain rfl := List.mem_singleton.1 hf
                obtain ⟨p, hp, e⟩ := hA q hq
                refine ⟨_, ha, name, ns, as, kids, tpl, content, hr, rfl, ⟨p, hp, e⟩, fun h => hc ?_⟩
                simpa using allowedFor_spec S.E.U C hK name _ h
      · unfold urlFindings at hf
        obtain ⟨q, hq, hf⟩ := List.mem_flatMap.1 hf
        obtain ⟨p, hp, e⟩ := h1 q hq
        unfold urlFinding at hf
        dsimp only at hf
        have main : ∀ (sink : Bool) (rule : Option UrlRule), isSinkAttr (S.E.U.lower q.1) = sink → urlRuleFor C.url (S.E.U.lower name) (S.E.U.lower q.1) = rule →
            (sink = true ∨ rule ≠ none) → f ∈ (match (if sink then sinkKind S.E.U (S.E.U.lower name) (S.E.U.lower q.1) (allowlistAttrs S.E.U (effAttrs C) name A) else some .url) with
              | none => []
              | some kind =>
                match q.2, rule with
                | none, _ => [Finding.url (S.E.U.lower q.1)]
                | _, none => [Finding.urlNoRule (S.E.U.lower q.1)]
                | some v, some rule =>
                  match sinkValue S.E C.url rule (S.E.U.lower name) (S.E.U.lower q.1) kind v with
                  | none => [Finding.url (S.E.U.lower q.1)]
                  | some _ => []) → Justified S.E.U.lower C l0 f := by
          intro sink rule hs hru hor hf
          have hu : f = .url (S.E.U.lower q.1) → Justified S.E.U.lower C l0 f := by
            rintro rfl
            exact ⟨_, ha, name, ns, as, kids, tpl, content, hr, rfl, ⟨p, hp, e⟩, by rw [hs, hru]; exact hor⟩
          split at hf
          · simp at hf
          · split at hf
            · exact hu (List.mem_singleton.1 hf)
            · obtain rfl := List.mem_singleton.1 hf
              refine ⟨_, ha, name, ns, as, kids, tpl, content, hr, rfl, ⟨p, hp, e⟩, ?_, hru⟩
              rcases hor with h | h
              · rw [hs]; exact h
              · exact absurd rfl h
            · split at hf
              · exact hu (List.mem_singleton.1 hf)
              · simp at hf
        revert hf main
        generalize isSinkAttr (S.E.U.lower q.1) = sink
        generalize urlRuleFor C.url (S.E.U.lower name) (S.E.U.lower q.1) = rule
        intro hf main
        cases sink with
        | true => exact main true rule rfl rfl (.inl rfl) hf
        | false =>
          cases rule with
          | none => simp at hf
          | some r => exact main false (some r) rfl rfl (.inr (by simp)) hf
    · unfold styleFindings at hf
      split at hf
      · simp at hf
      · rename_i hc
        split at hf
        · simp at hf
        · rename_i k v hfind
          split at hf
          · obtain rfl := List.mem_singleton.1 hf
            obtain ⟨p, hp, e⟩ := h2 _ (List.mem_of_find?_eq_some hfind)
            have hst := List.find?_some hfind
            have hst : S.E.U.lower k = c%"style" := of_decide_eq_true hst
            exact ⟨fun e => hc (by rw [e]; rfl), _, ha, name, ns, as, kids, tpl, content, hr, rfl, p, hp, e.trans hst⟩
          · simp at hf
  unfold attrsF at hf
  rcases List.mem_append.1 hf with hf | hf
  · split at hf
    · rename_i hi
      unfold invisibleFindings at hf
      dsimp only at hf
      split at hf
      · simp at hf
      · rename_i hne
        obtain rfl := List.mem_singleton.1 hf
        refine ⟨hi, fun e => hne (by rw [e]; rfl), _, name, ns, as, kids, tpl, content, hr, rfl, ?_⟩
        intro k hk
        obtain ⟨⟨k', v⟩, hq, rfl⟩ := List.mem_map.1 hk
        obtain ⟨hq, hd⟩ := List.mem_filter.1 hq
        have hd := of_decide_eq_true hd
        cases v with
        | none => simp at hd
        | some v =>
          refine ⟨v, hq, ?_⟩
          have : ¬ ∀ c ∈ v, ¬ Invisible c := fun h => hd (by simp only [Option.map_some]; rw [(strip_id_iff v).2 h])
          simpa using this
    · simp at hf
  · refine key _ ?_ f hf
    intro q hq
    split at hq
    · obtain ⟨p, hp, rfl⟩ := List.mem_map.1 hq; exact ⟨p, hp, rfl⟩
    · exact ⟨q, hq, rfl⟩

/-! ### The walk -/

theorem textF_true (C : SanCfg) (d : Str) : ∀ f ∈ textF C d, f = .invisibleText ∧ C.stripInv = true ∧ ∃ c ∈ d, Invisible c := by
  intro f hf
  unfold textF at hf
  split at hf
  · rename_i h
    refine ⟨List.mem_singleton.1 hf, h.1, ?_⟩
    have : ¬ ∀ c ∈ d, ¬ Invisible c := fun h2 => h.2 ((strip_id_iff d).2 h2)
    simpa using this
  · simp at hf

theorem tagTextF_true (C : SanCfg) (t : Option Str) : ∀ f ∈ tagTextF C t, f = .invisibleText ∧ C.stripInv = true := by
  intro f hf
  unfold tagTextF at hf
  split at hf
  · simp at hf
  · split at hf
    · simp at hf
    · have := textF_true C _ f hf; exact ⟨this.1, this.2.1⟩

theorem seqF_sub {a : List Node × Bool} {fa fb : List Finding} {f : Finding} (h : f ∈ seqF a fa fb) : f ∈ fa ∨ f ∈ fb := by
  unfold seqF at h
  split at h
  · exact .inl h
  · exact List.mem_append.1 h

mutual
theorem reps_true (S : SanEnv) (C : SanCfg) (hK : SanCfg.Keyed S.E.U C.allowedAttrs) (l0 : List Node) : ∀ (n : Node) (hoist fc : Bool),
    Everywhere (SrcIn l0) n → (fc = true → ∃ m, Reach m l0 ∧ Foreign S.E.U.lower m) → ∀ f ∈ reps S C hoist fc n, Justified S.E.U.lower C l0 f
  | .elem name ns as kids tpl content, hoist, fc, hE, hfc, f, hf => by
    simp only [Everywhere] at hE
    obtain ⟨⟨hp, hr⟩, hEk, hEc⟩ := hE
    have hp : ProperName name := hp
    have hs : isSpecial (.elem name ns as kids tpl content) = false := (special_iff name ns as kids tpl content).2 hp
    have hfg : (fc || isForeign S.E.U (.elem name ns as kids tpl content)) = true → ∃ m, Reach m l0 ∧ Foreign S.E.U.lower m := by
      intro h
      rcases Bool.or_eq_true _ _ ▸ h with h | h
      · exact hfc h
      · exact ⟨_, hr, (isForeign_iff S.E.U name ns as kids tpl content hs).1 h⟩
    have he : ∀ P : Str → Attrs → Prop, P name as → HasElem S.E.U.lower l0 (S.E.U.lower name) P :=
      fun P h => ⟨name, ns, as, kids, tpl, content, hr, rfl, h⟩
    simp only [reps] at hf
    rw [if_neg (by rw [hs]; simp)] at hf
    split at hf
    · rename_i h
      obtain rfl := List.mem_singleton.1 hf
      exact ⟨he _ trivial, hfg (by simp only [Bool.and_eq_true] at h; exact h.2)⟩
    · have hidx : ∀ (b fg : Bool), (fg = true → ∃ m, Reach m l0 ∧ Foreign S.E.U.lower m) → 
          (f ∈ repsL S C b fg kids ∨ f ∈ (if tpl then repsL S C b fg content else [])) → Justified S.E.U.lower C l0 f := by
        intro b fg hfg h
        rcases h with h | h
        · exact repsL_true S C hK l0 kids _ _ hEk hfg f h
        · split at h
          · rename_i ht; exact repsL_true S C hK l0 content _ _ (hEc ht) hfg f h
          · simp at h
      have htag : f ∈ tagFindings S.E.U C name → Justified S.E.U.lower C l0 f := by
        intro h
        unfold tagFindings at h
        split at h
        · simp at h
        · rename_i h1
          have h1' : S.E.U.lower name ∉ C.allowedTags := fun k => h1 (by simpa using k)
          split at h
          · rename_i h2
            obtain rfl := List.mem_singleton.1 h
            exact ⟨he _ trivial, h1', by simpa using h2⟩
          · rename_i h2
            obtain rfl := List.mem_singleton.1 h
            exact ⟨he _ trivial, h1', fun k => h2 (by simpa using k)⟩
      generalize hd : decision S.E.U C name = d at hf
      unfold decision at hd
      cases d with
      | keep =>
        have ha : S.E.U.lower name ∈ C.allowedTags := by
          split at hd
          · rename_i h; simpa using h
          · split at hd
            · cases hd
            · split at hd <;> cases hd
        rcases List.mem_append.1 hf with h | h
        · exact attrsF_true S C hK l0 name ns as kids tpl content hr ha f h
        · exact hidx _ _ hfg (List.mem_append.1 h)
      | drop => exact htag hf
      | unwrap =>
        rcases List.mem_append.1 hf with h | h
        · exact htag h
        · exact hidx _ _ hfc (seqF_sub h)
      | escape =>
        have hesc : C.handling = .escape ∧ S.E.U.lower name ∉ C.allowedTags := by
          split at hd
          · cases hd
          · rename_i h1
            split at hd
            · cases hd
            · refine ⟨?_, fun k => h1 (by simpa using k)⟩
              split at hd
              · cases hd
              · cases hd
              · assumption
        have htt : ∀ t, f ∈ tagTextF C t → Justified S.E.U.lower C l0 f := by
          intro t h
          obtain ⟨rfl, hi⟩ := tagTextF_true C t f h
          exact ⟨hi, .inr ⟨hesc.1, _, hesc.2, he _ trivial⟩⟩
        rcases List.mem_append.1 hf with h | h
        · exact htag h
        · rcases List.mem_append.1 h with h | h
          · exact htt _ h
          · rcases seqF_sub h with h | h
            · exact hidx _ _ hfc (seqF_sub h)
            · exact htt _ h
  | .doc kids, hoist, fc, hE, hfc, f, hf => by
    simp only [Everywhere] at hE
    simp only [reps] at hf
    exact repsL_true S C hK l0 kids _ _ hE.2 hfc f hf
  | .text d, hoist, fc, hE, hfc, f, hf => by
    simp only [reps] at hf
    simp only [Everywhere] at hE
    obtain ⟨rfl, h1, h2⟩ := textF_true C d f hf
    exact ⟨h1, .inl ⟨d, hE.2, h2⟩⟩
  | .comment d, hoist, fc, hE, hfc, f, hf => by
    simp only [reps] at hf
    simp only [Everywhere] at hE
    split at hf
    · rename_i h
      unfold commentF at hf
      split at hf
      · simp at hf
      · rename_i h2; obtain rfl := List.mem_singleton.1 hf; exact ⟨h, h2, d, .inl hE.2⟩
    · simp at hf
  | .pi d, hoist, fc, hE, hfc, f, hf => by
    simp only [reps] at hf
    simp only [Everywhere] at hE
    split at hf
    · rename_i h
      unfold commentF at hf
      split at hf
      · simp at hf
      · rename_i h2; obtain rfl := List.mem_singleton.1 hf; exact ⟨h, h2, d, .inr hE.2⟩
    · simp at hf
  | .doctype a b c, hoist, fc, hE, hfc, f, hf => by
    simp only [reps] at hf
    simp only [Everywhere] at hE
    split at hf
    · rename_i h
      obtain rfl := List.mem_singleton.1 hf; exact ⟨h, a, b, c, hE.2⟩
    · simp at hf
theorem repsL_true (S : SanEnv) (C : SanCfg) (hK : SanCfg.Keyed S.E.U C.allowedAttrs) (l0 : List Node) : ∀ (l : List Node) (hoist fc : Bool),
    EverywhereL (SrcIn l0) l → (fc = true → ∃ m, Reach m l0 ∧ Foreign S.E.U.lower m) → ∀ f ∈ repsL S C hoist fc l, Justified S.E.U.lower C l0 f
  | [], _, _, _, _, f, hf => by simp [repsL] at hf
  | n :: l, hoist, fc, hE, hfc, f, hf => by
    simp only [EverywhereL] at hE
    rw [repsL] at hf
    rcases seqF_sub hf with h | h
    · exact reps_true S C hK l0 n hoist fc hE.1 hfc f h
    · exact repsL_true S C hK l0 l hoist fc hE.2 hfc f h
end

/-! ### Raw text -/

theorem everywhereL_append {p : Node → Prop} : ∀ {a b : List Node}, EverywhereL p a → EverywhereL p b → EverywhereL p (a ++ b)
  | [], _, _, hb => hb
  | n :: a, b, ha, hb => by
    simp only [List.cons_append, EverywhereL] at ha ⊢
    exact ⟨ha.1, everywhereL_append ha.2 hb⟩

theorem everywhereL_cutSeq {p : Node → Prop} {a b : List Node × Bool} (ha : EverywhereL p a.1) (hb : EverywhereL p b.1) :
    EverywhereL p (cutSeq a b).1 := by
  unfold cutSeq
  split
  · exact ha
  · exact everywhereL_append ha hb

theorem srcName_leaf (S : SanEnv) (C : SanCfg) (l0 : List Node) (n : Node) (hl : ∀ name ns as kids tpl content, n ≠ .elem name ns as kids tpl content)
    (hd : ∀ k, n ≠ .doc k) : EverywhereL (SrcName l0) (cleanLeaf S C n) := by
  unfold cleanLeaf
  split
  · unfold commentRes
    split
    · split <;> exact ⟨trivial, trivial⟩
    · trivial
  · split
    · trivial
    · refine ⟨?_, trivial⟩
      cases n with
      | elem => exact absurd rfl (hl _ _ _ _ _ _)
      | doc => exact absurd rfl (hd _)
      | text => simp only [finish]; split <;> trivial
      | _ => simp only [finish]; rw [if_pos (by simp [isSpecial, nodeName])]; trivial

theorem srcName_tagText (C : SanCfg) (l0 : List Node) (t : Option Str) : EverywhereL (SrcName l0) (tagText C t) := by
  unfold tagText textNode?
  cases t with
  | none => trivial
  | some s =>
    by_cases hs : s.isEmpty = true
    · simp only [hs, if_true, List.map_nil]; trivial
    · simp only [hs, List.map_cons, List.map_nil]; exact ⟨trivial, trivial⟩

mutual
theorem clean_srcName (S : SanEnv) (C : SanCfg) (l0 : List Node) : ∀ (n : Node) (hoist fc : Bool), Everywhere (SrcIn l0) n →
    EverywhereL (SrcName l0) (clean S C hoist fc n).1
  | .elem name ns as kids tpl content, hoist, fc, hE => by
    simp only [Everywhere] at hE
    obtain ⟨⟨hp, hr⟩, hEk, hEc⟩ := hE
    have hp : ProperName name := hp
    have hs : isSpecial (.elem name ns as kids tpl content) = false := (special_iff name ns as kids tpl content).2 hp
    have hb : ∀ b fg, EverywhereL (SrcName l0) (if tpl then cleanL S C b fg content else ([], false)).1 := by
      intro b fg
      split
      · rename_i h; exact cleanL_srcName S C l0 content _ _ (hEc h)
      · trivial
    simp only [clean]
    rw [if_neg (by rw [hs]; simp)]
    split
    · trivial
    · split
      · refine ⟨?_, trivial⟩
        simp only [Everywhere]
        refine ⟨⟨ns, as, kids, tpl, content, hr⟩, cleanL_srcName S C l0 kids _ _ hEk, fun h => ?_⟩
        rw [if_pos h]; exact cleanL_srcName S C l0 content _ _ (hEc h)
      · trivial
      · exact everywhereL_cutSeq (cleanL_srcName S C l0 kids _ _ hEk) (hb _ _)
      · exact everywhereL_cutSeq (srcName_tagText C l0 _) (everywhereL_cutSeq (everywhereL_cutSeq (cleanL_srcName S C l0 kids _ _ hEk) (hb _ _))
          (srcName_tagText C l0 _))
  | .doc kids, hoist, fc, hE => by
    simp only [Everywhere] at hE
    simp only [clean]
    exact ⟨⟨trivial, cleanL_srcName S C l0 kids _ _ hE.2⟩, trivial⟩
  | .text d, _, _, _ => by simp only [clean]; exact srcName_leaf S C l0 _ (by simp) (by simp)
  | .comment d, _, _, _ => by simp only [clean]; exact srcName_leaf S C l0 _ (by simp) (by simp)
  | .pi d, _, _, _ => by simp only [clean]; exact srcName_leaf S C l0 _ (by simp) (by simp)
  | .doctype _ _ _, _, _, _ => by simp only [clean]; exact srcName_leaf S C l0 _ (by simp) (by simp)
theorem cleanL_srcName (S : SanEnv) (C : SanCfg) (l0 : List Node) : ∀ (l : List Node) (hoist fc : Bool), EverywhereL (SrcIn l0) l →
    EverywhereL (SrcName l0) (cleanL S C hoist fc l).1
  | [], _, _, _ => by simp only [cleanL]; trivial
  | n :: l, hoist, fc, hE => by
    simp only [EverywhereL] at hE
    simp only [cleanL]
    exact everywhereL_cutSeq (clean_srcName S C l0 n hoist fc hE.1) (cleanL_srcName S C l0 l hoist fc hE.2)
end

theorem hardenKidsF_true (U : Uni) (C : SanCfg) (l0 : List Node) (t : Str) (kids : List Node) (ht : t = c%"script" ∨ t = c%"style")
    (he : HasElem U.lower l0 t fun _ _ => True) : ∀ f ∈ hardenKidsF U t kids, Justified U.lower C l0 f := by
  intro f hf
  unfold hardenKidsF at hf
  dsimp only at hf
  have h1 : f ∈ (kids.filter fun k => match k with | .text _ => false | _ => true).map (fun _ => Finding.rawChild t) → Justified U.lower C l0 f := by
    intro h
    obtain ⟨_, -, rfl⟩ := List.mem_map.1 h
    exact ⟨ht, he⟩
  split at hf
  · exact h1 hf
  · rcases List.mem_append.1 hf with h | h
    · rcases List.mem_append.1 h with h | h
      · exact h1 h
      · split at h
        · obtain rfl := List.mem_singleton.1 h; exact ⟨ht, he⟩
        · simp at h
    · split at h
      · rename_i hc
        obtain rfl := List.mem_singleton.1 h
        simp only [Bool.and_eq_true, decide_eq_true_eq] at hc
        have : t = c%"style" := hc.1.1
        subst this
        exact he
      · simp at h

mutual
theorem hardenF_true (U : Uni) (C : SanCfg) (l0 : List Node) : ∀ n, Everywhere (SrcName l0) n → ∀ f ∈ hardenF U n, Justified U.lower C l0 f
  | .elem name ns as kids tpl content, h, f, hf => by
    simp only [Everywhere] at h
    simp only [hardenF] at hf
    obtain ⟨⟨ns', as', kids', tpl', content', hr⟩, h2, h3⟩ := h
    split at hf
    · rename_i hraw
      refine hardenKidsF_true U C l0 _ kids ?_ ⟨name, ns', as', kids', tpl', content', hr, rfl, trivial⟩ f hf
      simpa [rawtextElements] using hraw
    · rcases List.mem_append.1 hf with h | h
      · split at h
        · rename_i ht; exact hardenFL_true U C l0 content (h3 ht) f h
        · simp at h
      · exact hardenFL_true U C l0 kids h2 f h
  | .doc kids, h, f, hf => by
    simp only [Everywhere] at h
    simp only [hardenF] at hf
    exact hardenFL_true U C l0 kids h.2 f hf
  | .text _, _, f, hf => by simp [hardenF] at hf
  | .comment _, _, f, hf => by simp [hardenF] at hf
  | .pi _, _, f, hf => by simp [hardenF] at hf
  | .doctype _ _ _, _, f, hf => by simp [hardenF] at hf
theorem hardenFL_true (U : Uni) (C : SanCfg) (l0 : List Node) : ∀ l, EverywhereL (SrcName l0) l → ∀ f ∈ hardenFL U l, Justified U.lower C l0 f
  | [], _, f, hf => by simp [hardenFL] at hf
  | n :: l, h, f, hf => by
    simp only [EverywhereL] at h
    simp only [hardenFL] at hf
    rcases List.mem_append.1 hf with hf | hf
    · exact hardenF_true U C l0 n h.1 f hf
    · exact hardenFL_true U C l0 l h.2 f hf
end

/-- C99: no false alarms. Every finding names something that is in the source and that the policy objects to. -/
theorem C99_no_false_alarm (S : SanEnv) (C : SanCfg) (hK : SanCfg.Keyed S.E.U C.allowedAttrs) (root : Node) (hE : Everywhere Named root) :
    ∀ f ∈ (sanitizeRootR S C root).2, Justified S.E.U.lower C [root] f := by
  intro f hf
  have hk : (sanitizeRootR S C root).2 = (sanitizeKidsR S C (rootKids root)).2 := by cases root <;> rfl
  rw [hk, sanitizeKidsR_snd] at hf
  have hall : EverywhereL (SrcIn [root]) (rootKids root) := everywhere_root (srcIn_all [root] root hE fun _ h => h)
  rcases List.mem_append.1 hf with h | h
  · exact repsL_true S C hK [root] _ _ _ hall (by simp) f h
  · split at h
    · exact hardenFL_true S.E.U C [root] _ (cleanL_srcName S C [root] _ _ _ hall) f h
    · simp at h

end JH
