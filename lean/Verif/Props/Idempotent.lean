import Verif.Props.AttrIdem
import Verif.Props.Policy
/-! C30: sanitizing is idempotent; C54: constructed policies meet the assumptions of the sanitizer theorems. -/
namespace JH
open Spec

/-- The part of the sanitizer's configuration that comes from a constructed policy. -/
def Policy.toSan (p : Policy) (handling : TagHandling) (url : UrlPolicy) (dropComments dropDoctype stripInv : Bool) : SanCfg :=
  { allowedTags := p.allowedTags, allowedAttrs := p.allowedAttributes, dropContent := p.dropContentTags, handling := handling, url := url,
    cssProps := p.cssProps, forceRel := p.forceRel, dropComments := dropComments, dropDoctype := dropDoctype, stripInv := stripInv }

/-- C54: every policy that can be constructed is in the normal form the sanitizer's theorems (C24-C32, C59) assume. -/
theorem C54_sanitizer_ready (U : Uni) (tags : List Str) (attrs : List (Str × List Str)) (drop css rel : List Str) (p : Policy)
    (h : mkPolicy U tags attrs drop css rel = some p) (handling : TagHandling) (url : UrlPolicy) (dc dd si : Bool) :
    (p.toSan handling url dc dd si).Normal U ∧ SanCfg.Keyed U (p.toSan handling url dc dd si).allowedAttrs ∧
      ∀ t ∈ p.forceRel, t ≠ [] ∧ U.lower t = t := by
  unfold mkPolicy at h
  cases hna : normAttrs U [] attrs with
  | none => rw [hna] at h; simp at h
  | some na =>
    rw [hna] at h
    dsimp only at h
    split at h
    · simp at h
    · rename_i hst
      simp only [Option.some.injEq] at h
      subst h
      obtain ⟨h1, h2, h3, h4⟩ := normAttrs_spec U attrs [] na hna (by simp)
      have hlow : ∀ vs n, n ∈ normSet U vs → U.lower n = n := by
        intro vs n hn
        obtain ⟨-, v, -, rfl⟩ := (C54_normalized U vs n).1 hn
        exact U.lower_idem _
      refine ⟨⟨?_, ?_⟩, ⟨?_, h1⟩, ?_⟩
      · intro q hq k hk
        have : inDict na q.1 k := ⟨q.2, hq, hk⟩
        rcases (h4 _ _).1 this with h | ⟨r, -, -, hr⟩
        · obtain ⟨s, hs, -⟩ := h; simp at hs
        · exact hlow _ _ hr
      · intro hc q hq hk
        have hc' : css = [] := hc
        apply hst
        rw [Bool.and_eq_true]
        refine ⟨?_, by simp [hc']⟩
        rw [List.any_eq_true]
        exact ⟨q, hq, by simpa using hk⟩
      · intro q hq
        rcases (h3 q.1).1 (List.mem_map.2 ⟨q, hq, rfl⟩) with h | ⟨r, -, e⟩
        · simp at h
        · rw [← e]; exact U.lower_idem _
      · intro t ht
        exact ⟨((C54_normalized U rel t).1 ht).1, hlow rel t ht⟩

/-- C30: sanitizing a sanitized tree again with the same policy changes nothing. Partial: the tree has no foreign element directly inside an
element that is unwrapped or escaped (F7, `C30_hoisted_fails`), with `escape` no comment has invisible characters (F8, `C30_comment_fails`),
and the policy has no URL filter, proxy, or rule for the refresh directive (`C30_refresh_fails`), for URLs inside `style`, or for
`rel`, `name` and `http-equiv`; forced link relations contain no white space (`C30_rel_fails`). The default policies satisfy all this. -/
theorem C30_idempotent_partial (S : SanEnv) (C : SanCfg) (hP : IdemPolicy S C) (root : Node) (hE : Everywhere (IdemOk S C) root) :
    sanitizeRoot S C (sanitizeRoot S C root) = sanitizeRoot S C root :=
  sanitizeRoot_idem S C (attrs_settle S C hP) root hE

set_option maxRecDepth 8000 in
/-- C30 fails (F7): an SVG `a` inside a disallowed element is hoisted past the check for foreign elements, and dropped the second time. -/
theorem C30_hoisted_fails : ∃ (S : SanEnv) (C : SanCfg) (root : Node), sanitizeRoot S C (sanitizeRoot S C root) ≠ sanitizeRoot S C root := by
  refine ⟨SanEnv.sample, { allowedTags := [c%"a"] }, .doc [.elem c%"x" none [] [.elem c%"a" (some c%"svg") [] [] false []] false []], ?_⟩
  intro h
  have : Node.doc [] = .doc [.elem c%"a" (some c%"svg") [] [] false []] := h
  simp at this

set_option maxRecDepth 8000 in
/-- C30 fails (F8): with `escape`, the invisible characters of an escaped comment are only removed the second time. -/
theorem C30_comment_fails : ∃ (S : SanEnv) (C : SanCfg) (root : Node), C.handling = .escape ∧
    sanitizeRoot S C (sanitizeRoot S C root) ≠ sanitizeRoot S C root := by
  refine ⟨SanEnv.sample, { handling := .escape }, .doc [.comment ['a', Char.ofNat 0x200B]], rfl, ?_⟩
  intro h
  have : Node.doc [.text c%"<!--a-->"] = .doc [.text (c%"<!--a" ++ [Char.ofNat 0x200B] ++ c%"-->")] := h
  simp at this

set_option maxRecDepth 8000 in
/-- C30 fails (F27): a forced link relation with a space is not recognized when it is there, so `rel` grows with every run. -/
theorem C30_rel_fails : ∃ (S : SanEnv) (C : SanCfg) (root : Node), C.forceRel = [c%"x y"] ∧
    sanitizeRoot S C (sanitizeRoot S C root) ≠ sanitizeRoot S C root := by
  refine ⟨SanEnv.sample, { allowedTags := [c%"a"], forceRel := [c%"x y"] }, .doc [.elem c%"a" none [] [] false []], rfl, ?_⟩
  intro h
  have : Node.doc [.elem c%"a" none [(c%"rel", some c%"x y x y")] [] false []] = .doc [.elem c%"a" none [(c%"rel", some c%"x y")] [] false []] := h
  simp at this

set_option maxRecDepth 8000 in
/-- C30 fails (F21): one layer of quotes around the address of a refresh directive is removed by every run. -/
theorem C30_refresh_fails : ∃ (S : SanEnv) (C : SanCfg) (root : Node), C.url.rules.map Prod.fst = [(c%"meta", c%"content")] ∧
    sanitizeRoot S C (sanitizeRoot S C root) ≠ sanitizeRoot S C root := by
  refine ⟨SanEnv.sample,
    { allowedTags := [c%"meta"], allowedAttrs := [(c%"meta", [c%"http-equiv", c%"content"])],
      url := { rules := [((c%"meta", c%"content"), { schemes := [c%"https"] })] } },
    .doc [.elem c%"meta" none [(c%"http-equiv", some c%"refresh"), (c%"content", some c%"0;url=\"'/a'\"")] [] false []], rfl, ?_⟩
  intro h
  have : Node.doc [.elem c%"meta" none [(c%"http-equiv", some c%"refresh"), (c%"content", some c%"0;url=/a")] [] false []] =
    .doc [.elem c%"meta" none [(c%"http-equiv", some c%"refresh"), (c%"content", some c%"0;url='/a'")] [] false []] := h
  simp at this

/-- Non-vacuity of `C30_idempotent_partial`: a policy with links, lists of URLs, style and forced relations. -/
example : IdemPolicy SanEnv.sample
    { allowedTags := [c%"a", c%"img", c%"p"], allowedAttrs := [(c%"a", [c%"href", c%"style"]), (c%"img", [c%"srcset"])], cssProps := [c%"color"],
      forceRel := [c%"nofollow"],
      url := { rules := [((c%"a", c%"href"), { schemes := [c%"https"] }), ((c%"img", c%"srcset"), { schemes := [c%"https"], resolve := some c%"https" })] } } where
  normal := ⟨by decide, by decide⟩
  keyed := ⟨by decide, by decide⟩
  url := ⟨rfl, by decide, by
    intro q hq r hr
    simp only [List.mem_cons, List.not_mem_nil, or_false] at hq
    rcases hq with rfl | rfl
    all_goals (simp only [Option.some.injEq] at hr; subst hr; unfold SchemeName; decide), by decide⟩
  rel := by unfold RelToken; decide

set_option maxRecDepth 4000 in
example : Everywhere (IdemOk SanEnv.sample { allowedTags := [c%"p"], handling := .escape })
    (.doc [.elem c%"p" none [(c%"a", none)] [.comment c%"c", .elem c%"svg" (some c%"svg") [] [] false []] false []]) := by
  refine ⟨⟨trivial, fun _ h => absurd h (by simp [Disallowed]), by simp [CommentOk], trivial⟩, ⟨⟨?_, ?_, by simp [CommentOk], ?_⟩,
    ⟨⟨trivial, fun _ h => absurd h (by simp [Disallowed]), ?_, trivial⟩, ⟨⟨?_, ?_, by simp [CommentOk], ?_⟩, trivial, by simp⟩, trivial⟩, by simp⟩, trivial⟩
  · show ProperName _; unfold ProperName; decide
  · intro _ h; exact absurd h (by simp [Disallowed]; decide)
  · simp [IsDict]
  · intro _ _ _; decide
  · show ProperName _; unfold ProperName; decide
  · intro h; exact absurd (Or.inl (by decide)) h
  · simp [IsDict]

end JH
