import Verif.Props.SanDrop
/-! Every element of the result comes from an element of the source (C58). -/
namespace JH
open Spec

/-- The result node `m` is accounted for by the source nodes `l`. -/
def Origin (S : SanEnv) (C : SanCfg) (l : List Node) (m : Node) : Prop :=
  ∀ name ns as kids tpl content, m = .elem name ns as kids tpl content → ProperName name →
    ∃ as0 kids0 content0, Reach (.elem name ns as0 kids0 tpl content0) l ∧ as = postAttrs S C name as0

theorem origin_leaf (S : SanEnv) (C : SanCfg) (l : List Node) {m : Node}
    (hl : ∀ name ns as kids tpl content, m ≠ .elem name ns as kids tpl content) : Origin S C l m :=
  fun _ _ _ _ _ _ e _ => absurd e (hl _ _ _ _ _ _)

theorem Origin.lift {S : SanEnv} {C : SanCfg} {l l' : List Node} {m : Node} (h : Origin S C l m) (hr : ∀ x, Reach x l → Reach x l') :
    Origin S C l' m := by
  intro a b c d e f he hp
  obtain ⟨x, y, z, h1, h2⟩ := h a b c d e f he hp
  exact ⟨x, y, z, hr _ h1, h2⟩

theorem cleanLeaf_elem (S : SanEnv) (C : SanCfg) (n m : Node) (hl : ∀ name ns as kids tpl content, n ≠ .elem name ns as kids tpl content)
    (hd : ∀ k, n ≠ .doc k) (h : Reach m (cleanLeaf S C n)) : ∀ name ns as kids tpl content, m ≠ .elem name ns as kids tpl content := by
  unfold cleanLeaf at h
  split at h
  · unfold commentRes at h
    split at h
    · split at h <;> (have := reach_leaf (by simp) (by simp) h; subst this; simp)
    · exact (reach_nil h).elim
  · split at h
    · exact (reach_nil h).elim
    · have hf : ∀ name ns as kids tpl content, finish S C n ≠ .elem name ns as kids tpl content := by
        intro a b c d e f
        cases n with
        | elem => exact absurd rfl (hl _ _ _ _ _ _)
        | doc => exact absurd rfl (hd _)
        | text => simp [finish]
        | _ => simp only [finish]; rw [if_pos (by simp [isSpecial, nodeName])]; simp
      have hf' : ∀ k, finish S C n ≠ .doc k := by
        intro k
        cases n with
        | elem => exact absurd rfl (hl _ _ _ _ _ _)
        | doc => exact absurd rfl (hd _)
        | text => simp [finish]
        | _ => simp only [finish]; rw [if_pos (by simp [isSpecial, nodeName])]; simp
      rw [reach_leaf hf hf' h]; exact hf

theorem tagText_elem (C : SanCfg) (t : Option Str) (m : Node) (h : Reach m (tagText C t)) :
    ∀ name ns as kids tpl content, m ≠ .elem name ns as kids tpl content := by
  unfold tagText textNode? at h
  cases t with
  | none => simp at h; exact (reach_nil h).elim
  | some s =>
    by_cases hs : s.isEmpty = true
    · simp only [hs, if_true, List.map_nil] at h; exact (reach_nil h).elim
    · simp only [hs, List.map_cons, List.map_nil] at h
      have := reach_leaf (by simp) (by simp) h; subst this; simp

mutual
theorem clean_origin (S : SanEnv) (C : SanCfg) : ∀ (n : Node) (hoist fc : Bool) (m : Node), Reach m (clean S C hoist fc n).1 → Origin S C [n] m
  | .elem name ns as kids tpl content, hoist, fc, m, hm => by
    have liftK : name.head? ≠ some '#' → ∀ x, Reach x kids → Reach x [.elem name ns as kids tpl content] :=
      fun hn x hx => .kid (List.mem_singleton.2 rfl) hn hx
    have liftC : name.head? ≠ some '#' → tpl = true → ∀ x, Reach x content → Reach x [.elem name ns as kids tpl content] := by
      intro hn ht x hx; subst ht; exact .content (List.mem_singleton.2 rfl) hn hx
    have walked : ∀ fg as', (ProperName name → as' = postAttrs S C name as) →
        Reach m [.elem name ns as' (cleanL S C false fg kids).1 tpl (if tpl then (cleanL S C false fg content).1 else content)] →
        Origin S C [.elem name ns as kids tpl content] m := by
      intro fg as' hnf hr
      rcases reach_elem hr with rfl | ⟨hn, h | ⟨ht, h⟩⟩
      · intro a b c d e f he hp
        simp only [Node.elem.injEq] at he
        obtain ⟨rfl, rfl, rfl, -, rfl, -⟩ := he
        exact ⟨as, kids, content, .here (List.mem_singleton.2 rfl), hnf hp⟩
      · exact (cleanL_origin S C kids false fg m h).lift (liftK hn)
      · rw [if_pos ht] at h
        exact (cleanL_origin S C content false fg m h).lift (liftC hn ht)
    simp only [clean] at hm
    by_cases hs : isSpecial (.elem name ns as kids tpl content) = true
    · rw [if_pos hs] at hm
      have improper : ¬ ProperName name := fun hp => by
        rw [(special_iff name ns as kids tpl content).2 hp] at hs; simp at hs
      split at hm
      · unfold commentRes at hm
        simp only at hm
        split at hm
        · have := reach_leaf (by simp) (by simp) hm; subst this; exact origin_leaf _ _ _ (by simp)
        · exact (reach_nil hm).elim
      · split at hm
        · exact (reach_nil hm).elim
        · split at hm
          · rename_i hn
            have fin : ∀ K2 K3, Reach m [.elem name ns as K2 tpl K3] → Origin S C [.elem name ns as kids tpl content] m := by
              intro K2 K3 hr
              rcases reach_elem hr with rfl | ⟨h, -⟩
              · intro a b c d e f he hp
                simp only [Node.elem.injEq] at he
                obtain ⟨rfl, -⟩ := he
                exact absurd hp improper
              · exact absurd hn h
            split at hm
            · exact fin _ _ hm
            · exact fin _ _ hm
          · exact walked _ as (fun hp => absurd hp improper) hm
    · have hs' : isSpecial (.elem name ns as kids tpl content) = false := by simpa using hs
      have hn : name.head? ≠ some '#' := ((special_iff name ns as kids tpl content).1 hs').1
      rw [if_neg hs] at hm
      by_cases hf : (!hoist && (fc || isForeign S.E.U (.elem name ns as kids tpl content))) = true
      · rw [if_pos hf] at hm; exact (reach_nil hm).elim
      · rw [if_neg hf] at hm
        have up : Reach m (cutSeq (cleanL S C true fc kids) (if tpl then cleanL S C true fc content else ([], false))).1 →
            Origin S C [.elem name ns as kids tpl content] m := by
          intro hr
          rcases reach_cutSeq hr with h | h
          · exact (cleanL_origin S C kids true fc m h).lift (liftK hn)
          · by_cases ht : tpl = true
            · rw [if_pos ht] at h
              exact (cleanL_origin S C content true fc m h).lift (liftC hn ht)
            · rw [if_neg ht] at h; exact (reach_nil h).elim
        generalize hd : decision S.E.U C name = d at hm
        cases d with
        | keep => exact walked _ _ (fun _ => rfl) hm
        | drop => exact (reach_nil hm).elim
        | unwrap => exact up hm
        | escape =>
          rcases reach_cutSeq hm with h | h
          · exact origin_leaf _ _ _ (tagText_elem C _ m h)
          · rcases reach_cutSeq h with h | h
            · exact up h
            · exact origin_leaf _ _ _ (tagText_elem C _ m h)
  | .doc kids, hoist, fc, m, hm => by
    simp only [clean] at hm
    cases hm with
    | here h => have := List.mem_singleton.1 h; subst this; exact origin_leaf _ _ _ (by simp)
    | kid h => simp at h
    | content h => simp at h
    | doc h h' =>
      simp only [List.mem_singleton, Node.doc.injEq] at h
      subst h
      exact (cleanL_origin S C kids false fc m h').lift (fun x hx => .doc (List.mem_singleton.2 rfl) hx)
  | .text d, _, _, m, hm => by simp only [clean] at hm; exact origin_leaf _ _ _ (cleanLeaf_elem S C _ m (by simp) (by simp) hm)
  | .comment d, _, _, m, hm => by simp only [clean] at hm; exact origin_leaf _ _ _ (cleanLeaf_elem S C _ m (by simp) (by simp) hm)
  | .pi d, _, _, m, hm => by simp only [clean] at hm; exact origin_leaf _ _ _ (cleanLeaf_elem S C _ m (by simp) (by simp) hm)
  | .doctype a b c, _, _, m, hm => by simp only [clean] at hm; exact origin_leaf _ _ _ (cleanLeaf_elem S C _ m (by simp) (by simp) hm)
theorem cleanL_origin (S : SanEnv) (C : SanCfg) : ∀ (l : List Node) (hoist fc : Bool) (m : Node), Reach m (cleanL S C hoist fc l).1 → Origin S C l m
  | [], _, _, m, hm => by simp only [cleanL] at hm; exact (reach_nil hm).elim
  | n :: l, hoist, fc, m, hm => by
    simp only [cleanL] at hm
    rcases reach_cutSeq hm with h | h
    · exact (clean_origin S C n hoist fc m h).lift fun x hx => hx.mono (by simp)
    · exact (cleanL_origin S C l hoist fc m h).lift fun x hx => hx.mono (fun y hy => by simp [hy])
end

/-- Elements of the sanitized root. -/
theorem root_origin (S : SanEnv) (C : SanCfg) (root : Node) (name : Str) (ns : Option Str) (as : Attrs) (kids : List Node) (tpl : Bool)
    (content : List Node) (hm : Reach (.elem name ns as kids tpl content) [sanitizeRoot S C root]) (hp : ProperName name) :
    ∃ as0 kids0 content0, Reach (.elem name ns as0 kids0 tpl content0) [root] ∧ as = postAttrs S C name as0 := by
  rcases root_clean S C root _ hm with ⟨l, h⟩ | ⟨d, h⟩ | ⟨m0, h, hs⟩
  · simp at h
  · simp at h
  · cases m0 with
    | elem name' ns' as' kids' tpl' content' =>
      obtain ⟨rfl, rfl, rfl, rfl⟩ := hs
      obtain ⟨a, k, c, hr, e⟩ := cleanL_origin S C (rootKids root) false false _ h _ _ _ _ _ _ rfl hp
      refine ⟨a, k, c, ?_, e⟩
      cases root with
      | doc kids => exact .doc (List.mem_singleton.2 rfl) hr
      | _ => exact hr
    | _ => simp [SameHead] at hs

/-- The names of the attributes an element ends up with. -/
theorem post_keys (S : SanEnv) (C : SanCfg) (name : Str) (as0 : Attrs) :
    (∀ q ∈ postAttrs S C name as0, (∃ p ∈ as0, S.E.U.lower p.1 = S.E.U.lower q.1) ∨ (q.1 = c%"rel" ∧ S.E.U.lower name = c%"a" ∧ C.forceRel ≠ [])) ∧
    (∀ (A : Attrs) (q : Str × Option Str), q ∈ allowlistAttrs S.E.U (effAttrs C) name A → ∃ p ∈ A, S.E.U.lower p.1 = S.E.U.lower q.1) ∧
    (∀ (A : Attrs) (q : Str × Option Str), q ∈ dropUrlAttrs S.E C.url name A → ∃ p ∈ A, S.E.U.lower p.1 = S.E.U.lower q.1) := by
  have hstep : ∀ (al : List Str) (L acc : Attrs) (q : Str × Option Str), q ∈ L.foldl (allowStep S.E.U al) acc →
      q ∈ acc ∨ ∃ p ∈ L, S.E.U.lower p.1 = S.E.U.lower q.1 := by
    intro al L
    induction L with
    | nil => intro acc q h; exact .inl h
    | cons a L ih =>
      intro acc q h
      rw [List.foldl_cons] at h
      rcases ih _ _ h with h | ⟨p, hp, e⟩
      · unfold allowStep at h
        split at h
        · exact .inl h
        · split at h
          · rcases mem_dictSet h with rfl | ⟨h, -⟩
            · exact .inr ⟨a, by simp, rfl⟩
            · exact .inl h
          · split at h
            · rcases mem_dictSet h with rfl | ⟨h, -⟩
              · exact .inr ⟨a, by simp, (S.E.U.lower_idem _).symm⟩
              · exact .inl h
            · exact .inl h
      · exact .inr ⟨p, by simp [hp], e⟩
  have h1 : ∀ (A : Attrs) (q : Str × Option Str), q ∈ allowlistAttrs S.E.U (effAttrs C) name A → ∃ p ∈ A, S.E.U.lower p.1 = S.E.U.lower q.1 := by
    intro A q h
    unfold allowlistAttrs at h
    dsimp only at h
    split at h
    · exact ⟨q, h, rfl⟩
    · rcases hstep _ _ _ _ h with h | h
      · simp at h
      · exact h
  have h2 : ∀ (A : Attrs) (q : Str × Option Str), q ∈ dropUrlAttrs S.E C.url name A → ∃ p ∈ A, S.E.U.lower p.1 = S.E.U.lower q.1 := by
    intro A q h
    rcases dropUrl_mem S.E C.url name A q h with ⟨h, -⟩ | ⟨h, -⟩ | ⟨a, ha, s, -, rfl⟩
    · exact ⟨q, h, rfl⟩
    · exact ⟨q, h, rfl⟩
    · exact ⟨a, ha, (S.E.U.lower_idem _).symm⟩
  have hst : S.E.U.lower c%"style" = c%"style" := by rw [S.E.U.lower_ascii _ (by decide)]; decide
  have h3 : ∀ (A : Attrs) (q : Str × Option Str), q ∈ styleAttrs S.E C name A → ∃ p ∈ A, S.E.U.lower p.1 = S.E.U.lower q.1 := by
    intro A q h
    rcases style_mem S.E C name A q h with ⟨h, -⟩ | ⟨v, s, rfl, -, a, ha, hl⟩
    · exact ⟨q, h, rfl⟩
    · exact ⟨a, ha, by rw [hl, hst]⟩
  have h4 : ∀ (A : Attrs) (q : Str × Option Str), q ∈ sanAttrs S C name A → ∃ p ∈ A, S.E.U.lower p.1 = S.E.U.lower q.1 := by
    intro A q h
    obtain ⟨p, hp, e⟩ := h3 _ _ h
    obtain ⟨p2, hp2, e2⟩ := h2 _ _ hp
    obtain ⟨p3, hp3, e3⟩ := h1 _ _ hp2
    exact ⟨p3, hp3, by rw [e3, e2, e]⟩
  have h5 : ∀ q ∈ sanAttrs S C name (if C.stripInv then stripAttrs as0 else as0), ∃ p ∈ as0, S.E.U.lower p.1 = S.E.U.lower q.1 := by
    intro q h
    obtain ⟨p, hp, e⟩ := h4 _ _ h
    split at hp
    · obtain ⟨p0, hp0, rfl⟩ := List.mem_map.1 hp
      exact ⟨p0, hp0, e⟩
    · exact ⟨p, hp, e⟩
  refine ⟨?_, h1, h2⟩
  intro q hq
  unfold postAttrs at hq
  dsimp only at hq
  split at hq
  · exact .inl (h5 q hq)
  · rename_i hf
    rcases merge_mem _ _ _ _ q hq with h | ⟨h1, h2⟩
    · exact .inl (h5 q h)
    · exact .inr ⟨h1, h2, by intro e; rw [e] at hf; simp at hf⟩

/-- C58: sanitizing never invents an element: each element of the result has the name and namespace of an element of the source, and
each of its attributes has (up to case) the name of an attribute of that element, or is the forced link relation of an `a`. -/
theorem C58_no_new_elements (S : SanEnv) (C : SanCfg) (root : Node) (name : Str) (ns : Option Str) (as : Attrs) (kids : List Node) (tpl : Bool)
    (content : List Node) (hm : Reach (.elem name ns as kids tpl content) [sanitizeRoot S C root]) (hp : ProperName name) :
    ∃ as0 kids0 content0, Reach (.elem name ns as0 kids0 tpl content0) [root] ∧
      ∀ q ∈ as, (∃ p ∈ as0, S.E.U.lower p.1 = S.E.U.lower q.1) ∨ (q.1 = c%"rel" ∧ S.E.U.lower name = c%"a" ∧ C.forceRel ≠ []) := by
  obtain ⟨as0, k, c, hr, rfl⟩ := root_origin S C root name ns as kids tpl content hm hp
  exact ⟨as0, k, c, hr, (post_keys S C name as0).1⟩

/-- Non-vacuity: the result of sanitizing `<x><p class=..>` contains the `p`. -/
example : Reach (.elem c%"p" none [] [.text c%"t"] false [])
    [sanitizeRoot SanEnv.sample { allowedTags := [c%"p"] }
      (.doc [.elem c%"x" none [] [.elem c%"p" none [(c%"onclick", some c%"f()")] [.text c%"t"] false []] false []])] :=
  .doc (List.mem_singleton.2 rfl) (.here (List.mem_singleton.2 rfl))

end JH
