import Verif.Props.SanAttrs
import Verif.Spec.UrlAttrs
/-! C24-C27, C31: the theorems about what survives sanitization. -/
namespace JH
open Spec

/-! ### The hardening pass keeps elements -/

/-- The same element head. -/
def SameHead : Node → Node → Prop
  | .elem name ns as _ tpl _, .elem name' ns' as' _ tpl' _ => name = name' ∧ ns = ns' ∧ as = as' ∧ tpl = tpl'
  | .text _, .text _ => True
  | .doc _, .doc _ => True
  | a, b => a = b

theorem mem_hardenL {U : Uni} {n : Node} : ∀ {l : List Node}, n ∈ hardenL U l → ∃ n0 ∈ l, n = harden U n0 := by
  intro l
  induction l with
  | nil => intro h; simp [hardenL] at h
  | cons a l ih =>
    intro h
    simp only [hardenL, List.mem_cons] at h
    rcases h with h | h
    · exact ⟨a, by simp, h⟩
    · obtain ⟨b, hb, e⟩ := ih h; exact ⟨b, by simp [hb], e⟩

theorem harden_head (U : Uni) (n : Node) : SameHead (harden U n) n := by
  cases n with
  | elem name ns as kids tpl content => simp only [harden]; split <;> exact ⟨rfl, rfl, rfl, rfl⟩
  | doc kids => simp only [harden]; trivial
  | text => simp only [harden]; trivial
  | _ => simp only [harden]; rfl

theorem sameHead_refl (n : Node) : SameHead n n := by cases n <;> simp [SameHead]

theorem sameHead_text {a : Str} {n : Node} (h : SameHead (.text a) n) : ∃ b, n = .text b := by
  cases n <;> simp [SameHead] at h; exact ⟨_, rfl⟩

theorem hardenKids_text {U : Uni} {name : Str} {kids : List Node} {n : Node} (h : n ∈ hardenKids U name kids) : ∃ d, n = .text d := by
  unfold hardenKids at h
  dsimp only at h
  split at h
  · simp at h
  · split at h
    · simp at h
    · split at h
      · split at h
        · simp at h
        · exact ⟨_, by simpa using h⟩
      · obtain ⟨d, -, e⟩ := List.mem_map.1 h; exact ⟨d, e.symm⟩

/-- Every node after the hardening pass is a text or an old node, up to children. -/
theorem harden_reach {U : Uni} {m : Node} {l0 : List Node} (h : Reach m l0) : ∀ l, l0 = hardenL U l →
    (∃ d, m = .text d) ∨ ∃ m0, Reach m0 l ∧ SameHead m m0 := by
  induction h with
  | here h =>
    intro l e
    subst e
    obtain ⟨n0, h0, rfl⟩ := mem_hardenL h
    exact .inr ⟨n0, .here h0, harden_head U n0⟩
  | @kid l0 name ns as kids tpl content h1 h2 h3 ih =>
    intro l e
    subst e
    obtain ⟨n0, h0, e0⟩ := mem_hardenL h1
    cases n0 with
    | elem name' ns' as' kids' tpl' content' =>
      simp only [harden] at e0
      split at e0
      · simp only [Node.elem.injEq] at e0
        obtain ⟨rfl, rfl, rfl, rfl, rfl, rfl⟩ := e0
        left
        cases h3 with
        | here h => exact hardenKids_text h
        | kid h => obtain ⟨d, e⟩ := hardenKids_text h; simp at e
        | content h => obtain ⟨d, e⟩ := hardenKids_text h; simp at e
        | doc h => obtain ⟨d, e⟩ := hardenKids_text h; simp at e
      · simp only [Node.elem.injEq] at e0
        obtain ⟨rfl, rfl, rfl, rfl, rfl, -⟩ := e0
        rcases ih kids' rfl with h | ⟨m0, hm0, hs⟩
        · exact .inl h
        · exact .inr ⟨m0, .kid h0 h2 hm0, hs⟩
    | _ => simp [harden] at e0
  | @content l0 name ns as kids content h1 h2 h3 ih =>
    intro l e
    subst e
    obtain ⟨n0, h0, e0⟩ := mem_hardenL h1
    cases n0 with
    | elem name' ns' as' kids' tpl' content' =>
      simp only [harden] at e0
      split at e0
      · simp only [Node.elem.injEq] at e0
        obtain ⟨rfl, rfl, rfl, rfl, rfl, rfl⟩ := e0
        exact .inr ⟨_, .content h0 h2 h3, sameHead_refl _⟩
      · simp only [Node.elem.injEq] at e0
        obtain ⟨rfl, rfl, rfl, rfl, rfl, ec⟩ := e0
        simp only [if_true] at ec
        rcases ih content' ec with h | ⟨m0, hm0, hs⟩
        · exact .inl h
        · exact .inr ⟨m0, .content h0 h2 hm0, hs⟩
    | _ => simp [harden] at e0
  | doc h1 h2 ih =>
    intro l e
    subst e
    obtain ⟨n0, h0, e0⟩ := mem_hardenL h1
    cases n0 with
    | elem => simp only [harden] at e0; split at e0 <;> simp at e0
    | doc kids' =>
      simp only [harden, Node.doc.injEq] at e0
      rcases ih kids' e0 with h | ⟨m0, hm0, hs⟩
      · exact .inl h
      · exact .inr ⟨m0, .doc h0 hm0, hs⟩
    | _ => simp [harden] at e0

/-- Every node of the result is a text, or agrees with a node kept by the walk. -/
theorem san_kept (S : SanEnv) (C : SanCfg) (pre : List Op) (fuel : Nat) (kids : List Node) (m : Node)
    (hm : Reach m (transformKids S C pre fuel kids)) : (∃ d, m = .text d) ∨ ∃ m0, Kept S C m0 ∧ SameHead m m0 := by
  unfold transformKids at hm
  dsimp only at hm
  split at hm
  · rcases harden_reach hm _ rfl with h | ⟨m0, h0, hs⟩
    · exact .inl h
    · exact .inr ⟨m0, walk_kept S C pre fuel [] false kids m0 h0, hs⟩
  · exact .inr ⟨m, walk_kept S C pre fuel [] false kids m hm, sameHead_refl m⟩

/-- An element kept by the walk: its name passed the decision and its attributes were cleaned. -/
theorem kept_elem (S : SanEnv) (C : SanCfg) (m0 : Node) (name : Str) (ns : Option Str) (as : Attrs) (kids : List Node) (tpl : Bool)
    (content : List Node) (h : Kept S C m0) (hs : SameHead (.elem name ns as kids tpl content) m0) (hp : ProperName name) :
    decision S.E.U C name = .keep ∧ ∃ as0, as = postAttrs S C name as0 := by
  rcases h with ⟨d, rfl⟩ | ⟨n1, walk, rfl, hd, -, -⟩
  · simp [SameHead] at hs
  · have hh : ∀ n, SameHead (.elem name ns as kids tpl content) (descend walk n) → ∃ kids' content', n = .elem name ns as kids' tpl content' := by
      intro n hn
      cases n with
      | elem name' ns' as' kids' tpl' content' =>
        simp only [descend] at hn
        split at hn
        · split at hn
          · obtain ⟨rfl, rfl, rfl, rfl⟩ := hn; exact ⟨_, _, rfl⟩
          · obtain ⟨rfl, rfl, rfl, rfl⟩ := hn; exact ⟨_, _, rfl⟩
        · obtain ⟨rfl, rfl, rfl, rfl⟩ := hn; exact ⟨_, _, rfl⟩
      | _ => simp [descend, SameHead] at hn
    obtain ⟨kids', content', e⟩ := hh _ hs
    cases n1 with
    | elem name' ns' as' kids1 tpl' content1 =>
      simp only [finish] at e
      have hn : name' = name := by
        split at e
        · simp only [Node.elem.injEq] at e; exact e.1
        · simp only [setAttrs, Node.elem.injEq] at e; exact e.1
      subst hn
      have hns : isSpecial (.elem name' ns' as' kids1 tpl' content1) = false := by
        have h1 := hp.1
        have h2 := hp.2
        simp [isSpecial, nodeName, h1, h2]
      rw [hns] at e
      simp only [Bool.false_eq_true, if_false, setAttrs, Node.elem.injEq] at e
      exact ⟨hd hns, as', e.2.2.1.symm⟩
    | text d => simp [finish] at e
    | comment d => simp [finish, isSpecial, nodeName] at e
    | pi d => simp [finish, isSpecial, nodeName] at e
    | doctype a b c => simp [finish, isSpecial, nodeName] at e
    | doc k => simp [finish, isSpecial, nodeName] at e

theorem san_elem (S : SanEnv) (C : SanCfg) (pre : List Op) (fuel : Nat) (kids0 : List Node) (name : Str) (ns : Option Str)
    (as : Attrs) (kids : List Node) (tpl : Bool) (content : List Node) (hp : ProperName name)
    (hm : Reach (.elem name ns as kids tpl content) (transformKids S C pre fuel kids0)) :
    decision S.E.U C name = .keep ∧ ∃ as0, as = postAttrs S C name as0 := by
  rcases san_kept S C pre fuel kids0 _ hm with ⟨d, h⟩ | ⟨m0, hk, hs⟩
  · simp at h
  · exact kept_elem S C m0 name ns as kids tpl content hk hs hp

theorem decision_keep {U : Uni} {C : SanCfg} {name : Str} (h : decision U C name = .keep) : U.lower name ∈ C.allowedTags := by
  unfold decision at h
  split at h
  · rename_i h1; simpa using h1
  · split at h
    · simp at h
    · split at h <;> simp at h

/-- A node of the sanitized root is the root itself or a node of the sanitized children. -/
theorem root_reach (S : SanEnv) (C : SanCfg) (root m : Node) (hm : Reach m [sanitizeRoot S C root]) :
    (∃ l, m = .doc l) ∨ ∃ kids, Reach m (sanitizeKids S C kids) := by
  have hdoc : ∀ l, Reach m [.doc l] → (∃ l, m = .doc l) ∨ Reach m l := by
    intro l h
    cases h with
    | here h => exact .inl ⟨l, by simpa using h⟩
    | kid h => simp at h
    | content h => simp at h
    | doc h h' => simp only [List.mem_singleton, Node.doc.injEq] at h; exact .inr (h ▸ h')
  have hwrap : ∀ n, Reach m [match sanitizeKids S C [n] with | [only] => only | l => .doc l] →
      (∃ l, m = .doc l) ∨ ∃ kids, Reach m (sanitizeKids S C kids) := by
    intro n h
    split at h
    · rename_i only e; exact .inr ⟨[n], e ▸ h⟩
    · exact (hdoc _ h).imp_right fun h => ⟨_, h⟩
  cases root with
  | doc kids => simp only [sanitizeRoot] at hm; exact (hdoc _ hm).imp_right fun h => ⟨_, h⟩
  | _ => exact hwrap _ hm

/-- C24: after sanitizing any tree with any policy, every element (at any depth, including template content) has an allowed name.
Element names are compared in lower case; elements cannot be parsed or serialized under the reserved names `#...` and `!doctype`. -/
theorem C24_tags (S : SanEnv) (C : SanCfg) (root : Node) (name : Str) (ns : Option Str) (as : Attrs) (kids : List Node) (tpl : Bool)
    (content : List Node) (hm : Reach (.elem name ns as kids tpl content) [sanitizeRoot S C root]) (hp : ProperName name) :
    S.E.U.lower name ∈ C.allowedTags := by
  rcases root_reach S C root _ hm with ⟨l, h⟩ | ⟨kids0, h⟩
  · simp at h
  · exact decision_keep (san_elem S C [] _ kids0 name ns as kids tpl content hp h).1

/-- C24 with other transforms listed before `Sanitize`: they run in the same walk, and whatever they do to the nodes they see, only
allowed elements are left. -/
theorem C24_after_user_transforms (S : SanEnv) (C : SanCfg) (pre : List Op) (fuel : Nat) (kids0 : List Node)
    (name : Str) (ns : Option Str) (as : Attrs) (kids : List Node) (tpl : Bool) (content : List Node)
    (hm : Reach (.elem name ns as kids tpl content) (transformKids S C pre fuel kids0)) (hp : ProperName name) :
    S.E.U.lower name ∈ C.allowedTags :=
  decision_keep (san_elem S C pre fuel kids0 name ns as kids tpl content hp hm).1

/-! ### C25 -/

theorem post_url (S : SanEnv) (C : SanCfg) (name : Str) (as0 : Attrs) :
    ∃ A1, (∀ q ∈ A1, q.1 ∈ allowedFor S.E.U (effAttrs C) name) ∧
      (postAttrs S C name as0 = (if C.forceRel.isEmpty then styleAttrs S.E C name (dropUrlAttrs S.E C.url name A1)
        else mergeRel S.E.U C.forceRel name (styleAttrs S.E C name (dropUrlAttrs S.E C.url name A1)))) := by
  refine ⟨allowlistAttrs S.E.U (effAttrs C) name (if C.stripInv then stripAttrs as0 else as0), allowlist_keys _ _ _ _, ?_⟩
  simp only [postAttrs, sanAttrs]

theorem post_names (S : SanEnv) (C : SanCfg) (hN : C.Normal S.E.U) (name : Str) (as0 : Attrs) :
    ∀ q ∈ postAttrs S C name as0, AttrAllowed S.E.U.lower C.allowedAttrs C.forceRel name q.1 := by
  obtain ⟨A1, hA, e⟩ := post_url S C name as0
  have hA' : ∀ q ∈ A1, AttrAllowed S.E.U.lower C.allowedAttrs C.forceRel name q.1 := fun q hq => allowedFor_allowed _ _ _ _ (hA q hq)
  have hlow : ∀ q ∈ A1, S.E.U.lower q.1 = q.1 := fun q hq => allowed_lower S.E.U C hN name q.1 (hA' q hq)
  have h2 : ∀ q ∈ dropUrlAttrs S.E C.url name A1, ∃ a ∈ A1, q.1 = a.1 := by
    intro q hq
    rcases dropUrl_mem S.E C.url name A1 q hq with ⟨h, -⟩ | ⟨h, -⟩ | ⟨a, ha, s, -, rfl⟩
    · exact ⟨q, h, rfl⟩
    · exact ⟨q, h, rfl⟩
    · exact ⟨a, ha, hlow a ha⟩
  have h3 : ∀ q ∈ styleAttrs S.E C name (dropUrlAttrs S.E C.url name A1), ∃ a ∈ A1, q.1 = a.1 := by
    intro q hq
    rcases style_mem S.E C name _ q hq with ⟨h, -⟩ | ⟨v, s, rfl, -, a, ha, hl⟩
    · exact h2 q h
    · obtain ⟨b, hb, e⟩ := h2 a ha
      refine ⟨b, hb, ?_⟩
      rw [← hl, e, hlow b hb]
  have h3' : ∀ q ∈ styleAttrs S.E C name (dropUrlAttrs S.E C.url name A1), AttrAllowed S.E.U.lower C.allowedAttrs C.forceRel name q.1 := by
    intro q hq
    obtain ⟨a, ha, e⟩ := h3 q hq
    rw [e]; exact hA' a ha
  intro q hq
  rw [e] at hq
  split at hq
  · exact h3' q hq
  · rename_i hf
    rcases merge_mem _ _ _ _ q hq with h | ⟨h1, h2⟩
    · exact h3' q h
    · exact .inr ⟨h1, h2, by intro e; rw [e] at hf; simp at hf⟩

/-- C25: after sanitizing, every attribute of every element is one the policy allows for that element or for all, or the forced link
relation. `Normal` holds of every policy (C54). -/
theorem C25_names (S : SanEnv) (C : SanCfg) (hN : C.Normal S.E.U) (root : Node) (name : Str) (ns : Option Str) (as : Attrs)
    (kids : List Node) (tpl : Bool) (content : List Node) (hm : Reach (.elem name ns as kids tpl content) [sanitizeRoot S C root])
    (hp : ProperName name) : ∀ q ∈ as, AttrAllowed S.E.U.lower C.allowedAttrs C.forceRel name q.1 := by
  rcases root_reach S C root _ hm with ⟨l, h⟩ | ⟨kids0, h⟩
  · simp at h
  · obtain ⟨-, as0, rfl⟩ := san_elem S C [] _ kids0 name ns as kids tpl content hp h
    exact post_names S C hN name as0

/-- How an attribute is checked: as a URL sink of some kind, as a plain URL because the policy has a rule for it, or not at all. -/
def urlKind (U : Uni) (p : UrlPolicy) (tag attr : Str) (as : Attrs) : Option SinkKind :=
  if isSinkAttr attr then sinkKind U tag attr as else (urlRuleFor p tag attr).map fun _ => .url

theorem post_urls (S : SanEnv) (C : SanCfg) (hN : C.Normal S.E.U)
    (hguard : ∀ tag, urlRuleFor C.url tag c%"http-equiv" = none ∧ urlRuleFor C.url tag c%"name" = none)
    (name : Str) (as as0 : Attrs) (hpost : as = postAttrs S C name as0) (k : Str) (v : Option Str) (hk : (k, v) ∈ as) (hr : k ≠ c%"rel")
    (hs : k ≠ c%"style") (kind : SinkKind) (hkind : urlKind S.E.U C.url (S.E.U.lower name) k as = some kind) :
    ∃ rule u s, urlRuleFor C.url (S.E.U.lower name) k = some rule ∧ v = some s ∧
      sinkValue S.E C.url rule (S.E.U.lower name) k kind u = some s := by
  obtain ⟨A1, hA, e⟩ := post_url S C name as0
  have hlow : ∀ q ∈ A1, S.E.U.lower q.1 = q.1 := fun q hq => allowed_lower S.E.U C hN name q.1 (allowedFor_allowed _ _ _ _ (hA q hq))
  -- the guards see the same attributes before and after
  have hg : ∀ g ∈ [c%"http-equiv", c%"name"], guardAttrs S.E.U g as = guardAttrs S.E.U g A1 := by
    intro g hg
    have h1 : isSinkAttr g = false ∧ g ≠ c%"style" ∧ g ≠ c%"rel" := by
      simp only [List.mem_cons, List.not_mem_nil, or_false] at hg
      rcases hg with rfl | rfl <;> decide
    have h2 : urlRuleFor C.url (S.E.U.lower name) g = none := by
      simp only [List.mem_cons, List.not_mem_nil, or_false] at hg
      rcases hg with rfl | rfl
      · exact (hguard _).1
      · exact (hguard _).2
    rw [hpost, e]
    split
    · rw [guard_style _ _ _ _ _ h1.2.1, guard_dropUrl _ _ _ _ _ h1.1 h2]
    · rw [guard_merge _ _ _ _ _ h1.2.2, guard_style _ _ _ _ _ h1.2.1, guard_dropUrl _ _ _ _ _ h1.1 h2]
  have hkind' : urlKind S.E.U C.url (S.E.U.lower name) k A1 = some kind := by
    rw [← hkind]
    unfold urlKind
    rw [sinkKind_congr _ _ _ _ _ hg]
  have hmem : (k, v) ∈ dropUrlAttrs S.E C.url name A1 := by
    have hst : (k, v) ∈ styleAttrs S.E C name (dropUrlAttrs S.E C.url name A1) := by
      rw [hpost, e] at hk
      split at hk
      · exact hk
      · rcases merge_mem _ _ _ _ _ hk with h | ⟨h, -⟩
        · exact h
        · exact absurd h hr
    rcases style_mem _ _ _ _ _ hst with ⟨h, -⟩ | ⟨v', s, he, -⟩
    · exact h
    · simp only [Prod.mk.injEq] at he; exact absurd he.1 hs
  have fin : ∀ (a : Str × Option Str), a ∈ A1 → ∀ s, urlAct S.E C.url (S.E.U.lower name) A1 a.1 a.2 = .set s → k = a.1 → v = some s →
      ∃ rule u s, urlRuleFor C.url (S.E.U.lower name) k = some rule ∧ v = some s ∧ sinkValue S.E C.url rule (S.E.U.lower name) k kind u = some s := by
    intro a ha s hs hka hvs
    obtain ⟨rule, kind0, u, h1, h2, h3, h4⟩ := urlAct_set _ _ _ _ _ _ _ hs
    rw [hlow a ha, ← hka] at h2 h3 h4
    have : kind0 = kind := by
      unfold urlKind at hkind'
      split at h3
      · rename_i hsk; rw [if_pos hsk, h3] at hkind'; simpa using hkind'
      · rename_i hsk
        rw [if_neg hsk, h2] at hkind'
        simp only [Option.map_some, Option.some.injEq] at hkind' h3
        rw [← h3, hkind']
    subst this
    exact ⟨rule, u, s, h2, hvs, h4⟩
  rcases dropUrl_mem S.E C.url name A1 (k, v) hmem with ⟨hin, hkeep⟩ | ⟨hin, -, s, hset, hv⟩ | ⟨a, ha, s, hset, he⟩
  · exfalso
    have := urlAct_keep _ _ _ _ _ _ hkeep
    have hl := hlow _ hin
    dsimp only at this hl
    rw [hl] at this
    unfold urlKind at hkind'
    split at this
    · rename_i hsk; rw [if_pos hsk, this] at hkind'; simp at hkind'
    · rename_i hsk; rw [if_neg hsk, this] at hkind'; simp at hkind'
  · exact fin (k, v) hin s hset rfl hv
  · simp only [Prod.mk.injEq] at he
    exact fin a ha s hset (by rw [he.1, hlow a ha]) he.2

/-- After sanitizing, every attribute that is a URL sink (see `urlSinks`), or that the policy has a URL rule for, has a value
approved by its rule (C15-C22 say what that means): without a rule, it does not survive. `style` is C23, `rel` the forced relation. The
guarded sinks (`content` of a refreshing `meta`, `value` of a URL-bearing `param`) are decided by the attributes that are left; the
policy has no URL rules for `http-equiv` and `name` themselves. -/
theorem san_urls (S : SanEnv) (C : SanCfg) (hN : C.Normal S.E.U)
    (hguard : ∀ tag, urlRuleFor C.url tag c%"http-equiv" = none ∧ urlRuleFor C.url tag c%"name" = none)
    (root : Node) (name : Str) (ns : Option Str) (as : Attrs)
    (kids : List Node) (tpl : Bool) (content : List Node) (hm : Reach (.elem name ns as kids tpl content) [sanitizeRoot S C root])
    (hp : ProperName name) (k : Str) (v : Option Str) (hk : (k, v) ∈ as) (hr : k ≠ c%"rel") (hs : k ≠ c%"style") (kind : SinkKind)
    (hkind : urlKind S.E.U C.url (S.E.U.lower name) k as = some kind) :
    ∃ rule u s, urlRuleFor C.url (S.E.U.lower name) k = some rule ∧ v = some s ∧
      sinkValue S.E C.url rule (S.E.U.lower name) k kind u = some s := by
  rcases root_reach S C root _ hm with ⟨l, h⟩ | ⟨kids0, h⟩
  · simp at h
  · obtain ⟨-, as0, hpost⟩ := san_elem S C [] _ kids0 name ns as kids tpl content hp h
    exact post_urls S C hN hguard name as as0 hpost k v hk hr hs kind hkind

theorem guardHolds_split (U : Uni) (g : Str) (hg : U.lower g = g) (vals : List Str) (v : Str) (hv : U.lower (stripP U.isSpace v) ∈ vals) (post : Attrs) :
    ∀ pre : Attrs, (∀ p ∈ pre, U.lower p.1 ≠ g) → guardHolds U (g, vals) (pre ++ (g, some v) :: post) = true := by
  intro pre
  induction pre with
  | nil => intro _; simp [guardHolds, hg, hv]
  | cons p pre ih =>
    intro h
    have h1 := h p (by simp)
    have h2 := ih fun q hq => h q (by simp [hq])
    obtain ⟨k, w⟩ := p
    rw [List.cons_append]
    cases w with
    | none => rw [guardHolds]; exact h2
    | some w => rw [guardHolds]; simp only; rw [if_neg h1]; exact h2

/-- What holds an address is checked as one. -/
theorem holdsAddress_kind (U : Uni) (p : UrlPolicy) (tag : Str) (as : Attrs) (k : Str) (kind : SinkKind) (h : HoldsAddress U tag as k kind) :
    urlKind U p tag k as = some kind := by
  cases h with
  | listed h =>
    simp only [addressAttributes, List.mem_cons, List.not_mem_nil, or_false, Prod.mk.injEq] at h
    rcases h with ⟨rfl, rfl⟩ | ⟨rfl, rfl⟩ | ⟨rfl, rfl⟩ | ⟨rfl, rfl⟩ | ⟨rfl, rfl⟩ | ⟨rfl, rfl⟩ | ⟨rfl, rfl⟩ | ⟨rfl, rfl⟩ | ⟨rfl, rfl⟩ | ⟨rfl, rfl⟩ |
      ⟨rfl, rfl⟩ | ⟨rfl, rfl⟩ | ⟨rfl, rfl⟩ | ⟨rfl, rfl⟩ | ⟨rfl, rfl⟩ | ⟨rfl, rfl⟩ | ⟨rfl, rfl⟩ | ⟨rfl, rfl⟩ | ⟨rfl, rfl⟩ | ⟨rfl, rfl⟩ | ⟨rfl, rfl⟩ |
      ⟨rfl, rfl⟩ | ⟨rfl, rfl⟩ | ⟨rfl, rfl⟩ <;> rfl
  | refresh pre post v ht ha hp hv =>
    have h1 := guardHolds_split U c%"http-equiv" (by rw [U.lower_ascii _ (by decide)]; decide) [c%"refresh"] v (by simp [hv]) post pre hp
    rw [← ha] at h1
    subst ht
    show (urlSinks.find? _).map _ = _
    simp [urlSinks, h1]
  | param pre post v ht ha hp hv =>
    have h1 := guardHolds_split U c%"name" (by rw [U.lower_ascii _ (by decide)]; decide) addressParams v hv post pre hp
    rw [← ha] at h1
    unfold addressParams at h1
    subst ht
    show (urlSinks.find? _).map _ = _
    simp [urlSinks, h1]

/-- What is to be checked as an address is checked. -/
theorem checkedAs_kind (U : Uni) (p : UrlPolicy) (tag : Str) (as : Attrs) (k : Str) (kind : SinkKind) (h : CheckedAs U p tag as k kind) :
    urlKind U p tag k as = some kind := by
  cases h with
  | holds h => exact holdsAddress_kind _ _ _ _ _ _ h
  | ruled hk hr =>
    have h1 : isSinkAttr k = false := by
      unfold isSinkAttr
      rw [List.any_eq_false]
      intro x hx
      have : urlSinks.all fun s => addressNames.contains s.attr := by decide
      have := List.all_eq_true.1 this x hx
      simp only [decide_eq_true_eq]
      rintro rfl
      exact hk (by simpa using this)
    unfold urlKind
    rw [h1]
    cases h2 : urlRuleFor p tag k with
    | none => exact absurd h2 hr
    | some r => rfl

/-- C25: after sanitizing, every attribute that holds an address, by the list of `Spec/UrlAttrs`, has a value approved by its rule; without a rule
it does not survive. -/
theorem C25_addresses (S : SanEnv) (C : SanCfg) (hN : C.Normal S.E.U)
    (hguard : ∀ tag, urlRuleFor C.url tag c%"http-equiv" = none ∧ urlRuleFor C.url tag c%"name" = none)
    (root : Node) (name : Str) (ns : Option Str) (as : Attrs)
    (kids : List Node) (tpl : Bool) (content : List Node) (hm : Reach (.elem name ns as kids tpl content) [sanitizeRoot S C root])
    (hp : ProperName name) (k : Str) (v : Option Str) (hk : (k, v) ∈ as) (kind : SinkKind) (h : HoldsAddress S.E.U (S.E.U.lower name) as k kind) :
    ∃ rule u s, urlRuleFor C.url (S.E.U.lower name) k = some rule ∧ v = some s ∧
      sinkValue S.E C.url rule (S.E.U.lower name) k kind u = some s := by
  have hne : k ≠ c%"rel" ∧ k ≠ c%"style" := by
    cases h with
    | listed h =>
      have : addressAttributes.all fun p => decide (p.1 ≠ c%"rel" ∧ p.1 ≠ c%"style") := by decide
      exact of_decide_eq_true (List.all_eq_true.1 this _ h)
    | refresh => decide
    | param => decide
  exact san_urls S C hN hguard root name ns as kids tpl content hm hp k v hk hne.1 hne.2 kind (holdsAddress_kind _ _ _ _ _ _ h)

/-- C25: after sanitizing, every attribute that holds an address, or that the policy has a URL rule for, has a value approved by its rule (C15-C22 say
what that means): without a rule, it does not survive. `style` is C23, `rel` the forced relation. The addresses in `content` of a refreshing `meta` and in
`value` of a `param` are recognized by the attributes that are left; the policy has no URL rules for `http-equiv` and `name` themselves. -/
theorem C25_urls (S : SanEnv) (C : SanCfg) (hN : C.Normal S.E.U)
    (hguard : ∀ tag, urlRuleFor C.url tag c%"http-equiv" = none ∧ urlRuleFor C.url tag c%"name" = none)
    (root : Node) (name : Str) (ns : Option Str) (as : Attrs)
    (kids : List Node) (tpl : Bool) (content : List Node) (hm : Reach (.elem name ns as kids tpl content) [sanitizeRoot S C root])
    (hp : ProperName name) (k : Str) (v : Option Str) (hk : (k, v) ∈ as) (hr : k ≠ c%"rel") (hs : k ≠ c%"style") (kind : SinkKind)
    (hkind : CheckedAs S.E.U C.url (S.E.U.lower name) as k kind) :
    ∃ rule u s, urlRuleFor C.url (S.E.U.lower name) k = some rule ∧ v = some s ∧
      sinkValue S.E C.url rule (S.E.U.lower name) k kind u = some s :=
  san_urls S C hN hguard root name ns as kids tpl content hm hp k v hk hr hs kind (checkedAs_kind _ _ _ _ _ _ hkind)

/-- Where addresses are held. -/
example : HoldsAddress Uni.sample c%"button" [] c%"formaction" .url ∧
    HoldsAddress Uni.sample c%"meta" [(c%"charset", none), (c%"http-equiv", some c%" Refresh")] c%"content" .refresh := by
  refine ⟨.listed (by decide), .refresh [(c%"charset", none)] [] c%" Refresh" rfl rfl (by decide) (by decide)⟩

theorem post_style (S : SanEnv) (C : SanCfg) (hN : C.Normal S.E.U) (name : Str) (as as0 : Attrs) (hpost : as = postAttrs S C name as0)
    (v : Option Str) (hk : (c%"style", v) ∈ as) :
    ∃ u s, v = some s ∧ sanitizeStyle S.E C.cssProps (some C.url) (S.E.U.lower name) u = some s := by
  have hall := post_names S C hN name as0 _ (hpost ▸ hk)
  have hcss : C.cssProps ≠ [] := by
    intro hc
    rcases hall with ⟨p, hp, -, hk⟩ | ⟨h, -⟩
    · exact hN.style hc p hp hk
    · exact absurd (show c%"style" = c%"rel" from h) (by decide)
  obtain ⟨A1, hA, e⟩ := post_url S C name as0
  have hlow : ∀ q ∈ A1, S.E.U.lower q.1 = q.1 := fun q hq => allowed_lower S.E.U C hN name q.1 (allowedFor_allowed _ _ _ _ (hA q hq))
  have hlow2 : ∀ q ∈ dropUrlAttrs S.E C.url name A1, S.E.U.lower q.1 = q.1 := by
    intro q hq
    rcases dropUrl_mem S.E C.url name A1 q hq with ⟨h, -⟩ | ⟨h, -⟩ | ⟨a, ha, s, -, rfl⟩
    · exact hlow q h
    · exact hlow q h
    · exact S.E.U.lower_idem _
  have hst : (c%"style", v) ∈ styleAttrs S.E C name (dropUrlAttrs S.E C.url name A1) := by
    rw [hpost, e] at hk
    split at hk
    · exact hk
    · rcases merge_mem _ _ _ _ _ hk with h | ⟨h, -⟩
      · exact h
      · exact absurd (show c%"style" = c%"rel" from h) (by decide)
  rcases style_mem _ _ _ _ _ hst with ⟨-, h⟩ | ⟨u, s, he, hs, -⟩
  · exact absurd rfl (h hcss hlow2)
  · simp only [Prod.mk.injEq] at he
    exact ⟨u, s, he.2, hs⟩

/-- C25: a `style` attribute only survives with a value produced by the style sanitizer (C23). -/
theorem C25_style (S : SanEnv) (C : SanCfg) (hN : C.Normal S.E.U) (root : Node) (name : Str) (ns : Option Str) (as : Attrs)
    (kids : List Node) (tpl : Bool) (content : List Node) (hm : Reach (.elem name ns as kids tpl content) [sanitizeRoot S C root])
    (hp : ProperName name) (v : Option Str) (hk : (c%"style", v) ∈ as) :
    ∃ u s, v = some s ∧ sanitizeStyle S.E C.cssProps (some C.url) (S.E.U.lower name) u = some s := by
  rcases root_reach S C root _ hm with ⟨l, h⟩ | ⟨kids0, h⟩
  · simp at h
  · obtain ⟨-, as0, hpost⟩ := san_elem S C [] _ kids0 name ns as kids tpl content hp h
    exact post_style S C hN name as as0 hpost v hk

/-! ### C26 -/

theorem kept_removed (S : SanEnv) (C : SanCfg) (m : Node) (h : (∃ d, m = .text d) ∨ ∃ m0, Kept S C m0 ∧ SameHead m m0) :
    (C.dropComments = true → (∀ d, m ≠ .comment d) ∧ ∀ d, m ≠ .pi d) ∧ (C.dropDoctype = true → ∀ n p s, m ≠ .doctype n p s) := by
  have key : ∀ m0, Kept S C m0 → (C.dropComments = true → isCommentName m0 = false) ∧ (C.dropDoctype = true → nodeName m0 ≠ c%"!doctype") := by
    intro m0 hk
    rcases hk with ⟨d, rfl⟩ | ⟨n1, walk, rfl, -, h1, h2⟩
    · simp [isCommentName, nodeName]
    · have : nodeName (descend walk (finish S C n1)) = nodeName n1 := by
        have : ∀ n, nodeName (descend walk n) = nodeName n := by
          intro n
          cases n <;> simp only [descend] <;> first | rfl | (split <;> first | rfl | (split <;> rfl))
        rw [this, nodeName_finish]
      simp only [isCommentName, this]
      exact ⟨h1, h2⟩
  rcases h with ⟨d, rfl⟩ | ⟨m0, hk, hs⟩
  · simp
  · have hk' := key m0 hk
    refine ⟨fun hc => ⟨fun d e => ?_, fun d e => ?_⟩, fun hc n p s e => ?_⟩
    · subst e
      have := hk'.1 hc
      cases m0 <;> simp [SameHead] at hs
      simp [isCommentName, nodeName] at this
    · subst e
      have := hk'.1 hc
      cases m0 <;> simp [SameHead] at hs
      simp [isCommentName, nodeName] at this
    · subst e
      have := hk'.2 hc
      cases m0 <;> simp [SameHead] at hs
      simp [nodeName] at this

/-- C26: with `drop_comments` no comment or processing instruction remains anywhere, with `drop_doctype` no doctype. -/
theorem C26_removed (S : SanEnv) (C : SanCfg) (root m : Node) (hm : Reach m [sanitizeRoot S C root]) :
    (C.dropComments = true → (∀ d, m ≠ .comment d) ∧ ∀ d, m ≠ .pi d) ∧ (C.dropDoctype = true → ∀ n p s, m ≠ .doctype n p s) := by
  rcases root_reach S C root _ hm with ⟨l, rfl⟩ | ⟨kids0, h⟩
  · simp
  · exact kept_removed S C m (san_kept S C [] _ kids0 m h)

end JH
