import Verif.Props.SanDrop
import Verif.Props.TextOps
/-! C29: the text of the sanitized tree. -/
namespace JH
open Spec

/-- What the `strip_invisible_unicode` option does to text. -/
def stripOpt (C : SanCfg) (s : Str) : Str := if C.stripInv then stripInvisible s else s

theorem stripOpt_append (C : SanCfg) (a b : Str) : stripOpt C (a ++ b) = stripOpt C a ++ stripOpt C b := by
  unfold stripOpt; split
  · simp [C55_exact]
  · rfl

theorem stripOpt_nil (C : SanCfg) : stripOpt C [] = [] := by
  unfold stripOpt; split
  · simp [stripInvisible]
  · rfl

/-- The elements whose text is not kept: foreign elements, and those removed with their content. -/
def Spec.textGone (U : Uni) (C : SanCfg) (n : Node) : Bool := isForeign U n || droppedTag U C n

/-- The element has a proper name. -/
def Spec.Named : Node → Prop
  | .elem name _ _ _ _ _ => ProperName name
  | _ => True

/-- The trees C29 speaks about. -/
def TextOk (S : SanEnv) (C : SanCfg) (m : Node) : Prop :=
  Named m ∧ HoistOk S.E.U C m ∧ (Foreign S.E.U.lower m → S.unclosed m = false)

theorem keptTextL_append (g : Node → Bool) (a b : List Node) : keptTextL g (a ++ b) = keptTextL g a ++ keptTextL g b := by
  induction a with
  | nil => rfl
  | cons x xs ih => simp [keptTextL, ih]

/-- The wanted text of a result. -/
def HasText (r : List Node × Bool) (t : Str) : Prop := r.2 = false ∧ keptTextL (fun _ => false) r.1 = t

theorem hasText_seq {a b : List Node × Bool} {s t : Str} (ha : HasText a s) (hb : HasText b t) : HasText (cutSeq a b) (s ++ t) := by
  unfold HasText cutSeq at *
  rw [ha.1]
  simp [keptTextL_append, ha.2, hb.1, hb.2]

theorem cleanLeaf_text (S : SanEnv) (C : SanCfg) (n : Node) (he : C.handling ≠ .escape)
    (hl : ∀ name ns as kids tpl content, n ≠ .elem name ns as kids tpl content) (hd : ∀ k, n ≠ .doc k) (g : Node → Bool) :
    HasText (cleanLeaf S C n, false) (stripOpt C (keptText g n)) := by
  refine ⟨rfl, ?_⟩
  unfold cleanLeaf
  cases n with
  | elem => exact absurd rfl (hl _ _ _ _ _ _)
  | doc => exact absurd rfl (hd _)
  | text d => simp [isCommentName, nodeName, finish, keptTextL, keptText, stripOpt]
  | comment d =>
    simp only [keptText, stripOpt_nil]
    split
    · simp [commentRes, he, keptTextL]
    · split
      · rfl
      · simp only [finish]; rw [if_pos (by simp [isSpecial, nodeName])]; rfl
  | pi d =>
    simp only [keptText, stripOpt_nil]
    split
    · simp [commentRes, he, keptTextL]
    · split
      · rfl
      · simp only [finish]; rw [if_pos (by simp [isSpecial, nodeName])]; rfl
  | doctype a b c =>
    simp only [keptText, stripOpt_nil]
    split
    · simp [commentRes, he, keptTextL]
    · split
      · rfl
      · simp only [finish]; rw [if_pos (by simp [isSpecial, nodeName])]; rfl

mutual
theorem clean_text (S : SanEnv) (C : SanCfg) (he : C.handling ≠ .escape) : ∀ (n : Node) (hoist : Bool),
    (hoist = true → isForeign S.E.U n = false) → Everywhere (TextOk S C) n →
    HasText (clean S C hoist false n) (stripOpt C (keptText (textGone S.E.U C) n))
  | .elem name ns as kids tpl content, hoist, hh, hE => by
    simp only [Everywhere] at hE
    obtain ⟨⟨hN, hO, hU⟩, hEk, hEc⟩ := hE
    have hP := (special_iff name ns as kids tpl content).2 hN
    have hFi := isForeign_iff S.E.U name ns as kids tpl content hP
    by_cases hF : isForeign S.E.U (.elem name ns as kids tpl content) = true
    · have hho : hoist = false := by
        cases hoist
        · rfl
        · have := hh rfl; rw [hF] at this; simp at this
      subst hho
      have h1 : clean S C false false (.elem name ns as kids tpl content) = ([], false) := by
        simp only [clean]; rw [if_neg (by simp [hP]), if_pos (by simp [hF]), hU (hFi.1 hF)]
      rw [h1]
      simp [HasText, keptTextL, keptText, textGone, hF, stripOpt_nil]
    · have hF' : isForeign S.E.U (.elem name ns as kids tpl content) = false := by simpa using hF
      rw [clean_plain S C hoist _ _ _ _ _ _ hF' hP]
      by_cases hg : droppedTag S.E.U C (.elem name ns as kids tpl content) = true
      · rw [(decision_drop_iff S.E.U C name ns as kids tpl content).2 hg]
        simp [HasText, keptTextL, keptText, textGone, hg, stripOpt_nil]
      · have hg' : droppedTag S.E.U C (.elem name ns as kids tpl content) = false := by simpa using hg
        have ht : keptText (textGone S.E.U C) (.elem name ns as kids tpl content) =
            keptTextL (textGone S.E.U C) kids ++ (if tpl then keptTextL (textGone S.E.U C) content else []) := by
          simp only [keptText, textGone, hF', hg']; rfl
        rw [ht, stripOpt_append]
        have hdd : decision S.E.U C name ≠ .drop := fun h => hg ((decision_drop_iff S.E.U C name ns as kids tpl content).1 h)
        generalize hd : decision S.E.U C name = d
        rw [hd] at hdd
        cases d with
        | keep =>
          have a := cleanL_text S C he kids false (by simp) hEk
          refine ⟨rfl, ?_⟩
          simp only [keptTextL, keptText, Bool.false_eq_true, if_false, List.append_nil]
          rw [a.2]
          congr 1
          cases tpl with
          | false => simp [stripOpt_nil]
          | true => exact (cleanL_text S C he content false (by simp) (hEc rfl)).2
        | drop => exact absurd rfl hdd
        | unwrap =>
          have hk := hO (by rw [← hFi]; exact hF) (by
            have : ¬ decision S.E.U C name = .keep := by rw [hd]; simp
            rw [decision_keep_iff S.E.U C name ns as kids tpl content, Classical.not_not] at this; exact this) hg'
          have hk' : ∀ k ∈ contents (.elem name ns as kids tpl content), Everywhere (TextOk S C) k → isForeign S.E.U k = false := by
            intro k hk1 hk2
            cases k with
            | elem n1 n2 n3 n4 n5 n6 =>
              simp only [Everywhere] at hk2
              have h2 := (special_iff n1 n2 n3 n4 n5 n6).2 hk2.1.1
              have := hk _ hk1
              rw [← isForeign_iff _ _ _ _ _ _ _ h2] at this; simpa using this
            | _ => simp [isForeign]
          refine hasText_seq (cleanL_text S C he kids true (fun _ k hk1 => hk' k (by cases tpl <;> simp [contents, hk1])) hEk) ?_
          cases tpl with
          | false => simp [HasText, keptTextL, stripOpt_nil]
          | true => exact cleanL_text S C he content true (fun _ k hk1 => hk' k (by simp [contents, hk1])) (hEc rfl)
        | escape =>
          exfalso
          revert hd
          unfold decision
          generalize hh : C.handling = h
          rw [hh] at he
          cases h
          · split <;> (try split) <;> simp
          · split <;> (try split) <;> simp
          · exact absurd rfl he
  | .doc kids, hoist, _, hE => by
    simp only [Everywhere] at hE
    have a := cleanL_text S C he kids false (by simp) hE.2
    simp only [clean, keptText]
    refine ⟨rfl, ?_⟩
    simp only [keptTextL, keptText, List.append_nil]
    exact a.2
  | .text d, _, _, _ => by simp only [clean]; exact cleanLeaf_text S C _ he (by simp) (by simp) _
  | .comment d, _, _, _ => by simp only [clean]; exact cleanLeaf_text S C _ he (by simp) (by simp) _
  | .pi d, _, _, _ => by simp only [clean]; exact cleanLeaf_text S C _ he (by simp) (by simp) _
  | .doctype _ _ _, _, _, _ => by simp only [clean]; exact cleanLeaf_text S C _ he (by simp) (by simp) _
theorem cleanL_text (S : SanEnv) (C : SanCfg) (he : C.handling ≠ .escape) : ∀ (l : List Node) (hoist : Bool),
    (hoist = true → ∀ n ∈ l, Everywhere (TextOk S C) n → isForeign S.E.U n = false) → EverywhereL (TextOk S C) l →
    HasText (cleanL S C hoist false l) (stripOpt C (keptTextL (textGone S.E.U C) l))
  | [], _, _, _ => by simp [cleanL, HasText, keptTextL, stripOpt_nil]
  | n :: l, hoist, hh, hE => by
    simp only [EverywhereL] at hE
    simp only [cleanL, keptTextL, stripOpt_append]
    exact hasText_seq (clean_text S C he n hoist (fun e => hh e n (by simp) hE.1) hE.1)
      (cleanL_text S C he l hoist (fun e x hx => hh e x (by simp [hx])) hE.2)
end

/-- C29: under `unwrap` (or `drop`) handling, with no raw text element allowed, the text of the sanitized tree (text nodes in document
order, including template content) is the text of the original in document order without what is below foreign elements and elements
removed with their content, and without invisible characters when the policy strips them. For trees without a foreign element directly inside a removed element (see C27), without
foreign `script` or `style` elements whose end tag was not recorded (`openForeign`, F74), and without elements that have reserved names. -/
theorem C29_text_kept_partial (S : SanEnv) (C : SanCfg) (he : C.handling ≠ .escape) (hr : ∀ t ∈ C.allowedTags, t ≠ c%"script" ∧ t ≠ c%"style") (root : Node)
    (hE : Everywhere (fun m => Named m ∧ HoistOk S.E.U C m ∧ (Foreign S.E.U.lower m → S.unclosed m = false)) root) :
    allText (sanitizeRoot S C root) =
      (if C.stripInv then stripInvisible (keptText (textGone S.E.U C) root) else keptText (textGone S.E.U C) root) := by
  have hr' : C.allowedTags.any rawtextElements.contains = false := by
    rw [List.any_eq_false]
    intro t ht
    have := hr t ht
    simp [rawtextElements, this.1, this.2]
  have key : ∀ l, EverywhereL (TextOk S C) l → keptTextL (fun _ => false) (sanitizeKids S C l) = stripOpt C (keptTextL (textGone S.E.U C) l) := by
    intro l hl
    rw [sanitizeKids_clean, hr']
    exact (cleanL_text S C he l false (by simp) hl).2
  have wrap : ∀ l : List Node, allText (match l with | [only] => only | l => .doc l) = keptTextL (fun _ => false) l := by
    intro l
    split
    · simp [allText, keptTextL]
    · rfl
  have key1 : ∀ n, Everywhere (TextOk S C) n → allText (match sanitizeKids S C [n] with | [only] => only | l => .doc l) =
      stripOpt C (keptText (textGone S.E.U C) n) := by
    intro n hn
    rw [wrap, key [n] ⟨hn, trivial⟩]
    simp [keptTextL]
  change allText _ = stripOpt C _
  cases root with
  | doc kids =>
    simp only [sanitizeRoot, allText, keptText]
    exact key kids hE.2
  | _ => exact key1 _ hE

/-- Non-vacuity of C29. -/
example : Everywhere (fun m => Named m ∧ HoistOk Uni.sample { allowedTags := [c%"p"], dropContent := [c%"script"] } m ∧
      (Foreign Uni.sample.lower m → SanEnv.sample.unclosed m = false))
    (.doc [.elem c%"x" none [] [.text c%"a", .elem c%"script" none [] [.text c%"b"] false []] false [],
      .elem c%"svg" (some c%"svg") [] [.text c%"c"] false []]) := by
  refine ⟨⟨trivial, fun _ h => absurd h (by simp [Disallowed]), fun _ => rfl⟩,
    ⟨⟨by unfold Named ProperName; decide, ?_, fun _ => rfl⟩, ⟨⟨trivial, fun _ h => absurd h (by simp [Disallowed]), fun _ => rfl⟩,
      ⟨⟨by unfold Named ProperName; decide, ?_, fun _ => rfl⟩, ⟨⟨trivial, fun _ h => absurd h (by simp [Disallowed]), fun _ => rfl⟩, trivial⟩, by simp⟩, trivial⟩, by simp⟩,
      ⟨⟨by unfold Named ProperName; decide, ?_, fun _ => rfl⟩, ⟨⟨trivial, fun _ h => absurd h (by simp [Disallowed]), fun _ => rfl⟩, trivial⟩, by simp⟩, trivial⟩
  · intro _ _ _ k hk
    simp only [contents] at hk
    simp only [Bool.false_eq_true, if_false, List.mem_cons, List.not_mem_nil, or_false] at hk
    rcases hk with rfl | rfl
    · simp [Foreign]
    · simp [Foreign]; decide
  · intro _ _ h; exact absurd h (by decide)
  · intro h; exact absurd (Or.inl (by decide)) h

end JH
