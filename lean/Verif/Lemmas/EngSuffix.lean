import Verif.Model.EngMain

/-! Every method that reads the input answers with a suffix of what it was given. -/
namespace JH.Eng

/-! ### The scanners -/

theorem dw (p : Char → Bool) (s : Str) : s.dropWhile p <:+ s := List.dropWhile_suffix p
theorem ls (p : Char → Bool) (s : Str) : lstripP p s <:+ s := List.dropWhile_suffix p

theorem splitAt1_suffix (c : Char) : ∀ (s : Str) (p : Str × Str), splitAt1 c s = some p → p.2 <:+ s
  | [], _, h => by simp [splitAt1] at h
  | x :: s, p, h => by
    unfold splitAt1 at h
    by_cases hx : x = c
    · rw [if_pos hx] at h; simp only [Option.some.injEq] at h; rw [← h]; exact List.suffix_cons _ _
    · rw [if_neg hx] at h
      cases hs : splitAt1 c s with
      | none => rw [hs] at h; simp at h
      | some q =>
        rw [hs] at h; simp only [Option.map_some, Option.some.injEq] at h
        rw [← h]; exact (splitAt1_suffix c s q hs).trans (List.suffix_cons _ _)

theorem rawValue_suffix (s : Str) (p : Str × Str) (h : rawValue s = some p) : p.2 <:+ s := by
  unfold rawValue at h
  split at h
  · rename_i r
    have hl := ls isHtmlSpace r
    split at h
    · simp only [Option.some.injEq] at h; rw [← h]; exact List.nil_suffix
    · rename_i c r' hr
      rw [hr] at hl
      have hr2 : r' <:+ '=' :: r := ((List.suffix_cons c r').trans hl).trans (List.suffix_cons _ _)
      split at h
      · exact (splitAt1_suffix _ _ _ h).trans hr2
      · simp only [Option.some.injEq] at h; rw [← h]
        exact (dw _ _).trans (hl.trans (List.suffix_cons _ _))
  · simp only [Option.some.injEq] at h; rw [← h]; exact List.suffix_refl _

/-- The first character of what is left after spaces. -/
theorem strip_cons {p : Char → Bool} {s : Str} {c : Char} {r : Str} (h : lstripP p s = c :: r) : r <:+ s ∧ r.length < s.length := by
  have := ls p s
  rw [h] at this
  exact ⟨(List.suffix_cons c r).trans this, this.length_le⟩

theorem value_suffix {p q : Char → Bool} {s : Str} {c : Char} {r : Str} {v : Str × Str} (h : lstripP p s = c :: r)
    (hv : rawValue (lstripP p (r.dropWhile q)) = some v) : v.2 <:+ s ∧ v.2.length < s.length := by
  have h1 := (rawValue_suffix _ _ hv).trans ((ls p _).trans (dw q r))
  exact ⟨h1.trans (strip_cons h).1, Nat.lt_of_le_of_lt h1.length_le (strip_cons h).2⟩

theorem skipAttrsF_suffix : ∀ (n : Nat) (s : Str), (skipAttrsF n s).rest <:+ s
  | 0, s => List.suffix_refl _
  | n + 1, s => by
    unfold skipAttrsF
    split
    · exact List.nil_suffix
    · rename_i c r hl
      have hr := (strip_cons hl).1
      split
      · exact hr
      · split
        · exact (List.tail_suffix _).trans hr
        · split
          · exact (skipAttrsF_suffix n r).trans hr
          · split
            · exact List.nil_suffix
            · rename_i v hv
              exact (skipAttrsF_suffix n _).trans (value_suffix hl hv).1

theorem allAttrsF_suffix (C : Cfg) : ∀ (n : Nat) (acc : Attrs) (s : Str), (allAttrsF C n acc s).rest <:+ s
  | 0, _, s => List.suffix_refl _
  | n + 1, acc, s => by
    unfold allAttrsF
    split
    · exact List.nil_suffix
    · rename_i c r hl
      have hr := (strip_cons hl).1
      split
      · exact hr
      · split
        · exact (List.tail_suffix _).trans hr
        · split
          · exact (allAttrsF_suffix C n _ r).trans hr
          · dsimp only
            split
            · exact List.nil_suffix
            · rename_i v hv
              have hs := (value_suffix hl hv).1
              split
              · exact hs
              · exact (allAttrsF_suffix C n _ _).trans hs

theorem actionAttrsF_suffix (C : Cfg) (a : TagAction) : ∀ (n : Nat) (acc : Attrs) (s : Str), (actionAttrsF C a n acc s).rest <:+ s
  | 0, _, s => List.suffix_refl _
  | n + 1, acc, s => by
    unfold actionAttrsF
    split
    · exact List.nil_suffix
    · rename_i c r hl
      have hr := (strip_cons hl).1
      split
      · exact hr
      · split
        · exact (List.tail_suffix _).trans hr
        · split
          · exact (actionAttrsF_suffix C a n _ r).trans hr
          · dsimp only
            split
            · exact List.nil_suffix
            · rename_i v hv
              have hs := (value_suffix hl hv).1
              repeat' split
              all_goals first | exact hs | exact (actionAttrsF_suffix C a n _ _).trans hs

theorem skipAttrs_suffix (s : Str) : (skipAttrs s).rest <:+ s := skipAttrsF_suffix _ _
theorem allAttrs_suffix (C : Cfg) (s : Str) : (allAttrs C s).rest <:+ s := allAttrsF_suffix C _ _ _
theorem actionAttrs_suffix (C : Cfg) (a : Option TagAction) (s : Str) : (actionAttrs C a s).rest <:+ s := by
  unfold actionAttrs
  split
  · exact skipAttrs_suffix s
  · split
    · exact skipAttrs_suffix s
    · exact actionAttrsF_suffix C _ _ _ _

theorem safeScan_suffix (C : Cfg) (a : Option TagAction) (s : Str) : (safeScan C a s).rest <:+ s := by
  unfold safeScan
  split
  · exact List.tail_suffix _
  · exact actionAttrs_suffix C a s

theorem splitName_suffix (s : Str) : (splitName s).2 <:+ s := by
  unfold splitName
  split
  · exact List.nil_suffix
  · exact (dw _ _).trans (List.suffix_cons _ _)

theorem skipGt_suffix (s : Str) : skipGt s <:+ s := (List.tail_suffix _).trans (dw _ _)

theorem untilEnd_suffix (name s : Str) : (untilEnd name s).2 <:+ s := by
  unfold untilEnd
  split
  · exact List.nil_suffix
  · exact List.drop_suffix _ _

theorem untilClose_suffix (name s : Str) : (untilClose name s).2 <:+ s := by
  unfold untilClose
  split
  · exact List.nil_suffix
  · exact List.drop_suffix _ _

theorem tagName_suffix (s : Str) (p : Str × Str) (h : tagName s = some p) : p.2 <:+ s := by
  unfold tagName at h
  split at h
  · simp at h
  · split at h
    · simp only [Option.some.injEq] at h; rw [← h]; exact (dw _ _).trans (List.suffix_cons _ _)
    · simp at h

theorem afterGt_suffix (s : Str) : (match splitAt1 '>' s with | none => [] | some (_, x) => x) <:+ s := by
  split
  · exact List.nil_suffix
  · rename_i h; exact splitAt1_suffix _ _ _ h

theorem skipSubF_suffix (C : Cfg) (name : Str) : ∀ (n d : Nat) (s : Str) (p : Str × Bool), skipSubF C name n d s = some p → p.1 <:+ s
  | 0, d, s, p, h => by simp [skipSubF] at h
  | n + 1, 0, s, p, h => by
    unfold skipSubF skipDone at h
    split at h
    · simp at h
    · simp only [Option.some.injEq] at h; rw [← h]; exact List.suffix_refl _
  | n + 1, d + 1, s, p, h => by
    unfold skipSubF at h
    cases hs : splitAt1 '<' s with
    | none => rw [hs] at h; simp at h
    | some x =>
      rw [hs] at h
      obtain ⟨x, r⟩ := x
      have hr : r <:+ s := splitAt1_suffix _ _ _ hs
      dsimp only at h
      split at h
      · split at h
        · simp only [Option.some.injEq] at h; rw [← h]; exact List.nil_suffix
        · exact (skipSubF_suffix C name n _ _ p h).trans ((List.drop_suffix _ _).trans hr)
      · have hr2 : (if r.head? = some '/' then r.tail else r) <:+ s := by
          split
          · exact (List.tail_suffix _).trans hr
          · exact hr
        split at h
        · exact (skipSubF_suffix C name n _ _ p h).trans hr2
        · rename_i raw after ht
          have ha : after <:+ s := (tagName_suffix _ _ ht).trans hr2
          have hg := (afterGt_suffix after).trans ha
          split at h
          · simp at h
          · split at h
            · simp at h
            · split at h
              · simp only [Option.some.injEq] at h; rw [← h]; exact List.nil_suffix
              · split at h
                · split at h
                  · simp at h
                  · exact (skipSubF_suffix C name n _ _ p h).trans ((List.drop_suffix _ _).trans hg)
                · split at h
                  · exact (skipSubF_suffix C name n _ _ p h).trans hg
                  · exact (skipSubF_suffix C name n _ _ p h).trans hg

theorem skipSubtree_suffix (C : Cfg) (name s : Str) (p : Str × Bool) (h : skipSubtree C name s = some p) : p.1 <:+ s :=
  skipSubF_suffix C name _ _ _ p h

/-! ### The methods -/

/-- The method answers with a suffix of `r`. -/
class Rests (C : Cfg) (r : Str) (m : EM Str) : Prop where
  out : ∀ st, (m C st).1 <:+ r

/-- The method answers with nothing or a suffix of `r`. -/
class RestsO (C : Cfg) (r : Str) (m : EM (Option Str)) : Prop where
  out : ∀ st x, (m C st).1 = some x → x <:+ r

section
variable {C : Cfg} {r : Str} {α : Type}

theorem Rests.bind {m : EM α} {f : α → EM Str} (h : ∀ a, Rests C r (f a)) : Rests C r (m >>= f) := ⟨fun _ => (h _).out _⟩
theorem Rests.ite {c : Prop} [Decidable c] {m₁ m₂ : EM Str} (h : Rests C r m₁) (k : Rests C r m₂) : Rests C r (if c then m₁ else m₂) := by
  split
  · exact h
  · exact k
theorem Rests.bindCfg {f : Cfg → EM Str} (h : Rests C r (f C)) : Rests C r (cfg >>= f) := ⟨fun st => h.out st⟩
theorem RestsO.bind {m : EM α} {f : α → EM (Option Str)} (h : ∀ a, RestsO C r (f a)) : RestsO C r (m >>= f) := ⟨fun _ => (h _).out _⟩
theorem Rests.iteQ {c : Cfg → St → Bool} {m₁ m₂ : EM Str} (h : Rests C r m₁) (k : Rests C r m₂) : Rests C r (iteQ c m₁ m₂) := by
  refine ⟨fun s => ?_⟩
  unfold Eng.iteQ
  by_cases hc : c C s = true
  · rw [if_pos hc]; exact h.out s
  · rw [if_neg hc]; exact k.out s
theorem RestsO.iteQ {c : Cfg → St → Bool} {m₁ m₂ : EM (Option Str)} (h : RestsO C r m₁) (k : RestsO C r m₂) : RestsO C r (iteQ c m₁ m₂) := by
  refine ⟨fun s => ?_⟩
  unfold Eng.iteQ
  by_cases hc : c C s = true
  · rw [if_pos hc]; exact h.out s
  · rw [if_neg hc]; exact k.out s
theorem Rests.pure {t : Str} (h : t <:+ r) : Rests C r (Pure.pure t : EM Str) := ⟨fun _ => h⟩
theorem RestsO.none : RestsO C r (Pure.pure none : EM (Option Str)) := ⟨fun _ _ h => by simp [Pure.pure] at h⟩
theorem RestsO.some {t : Str} (h : t <:+ r) : RestsO C r (Pure.pure (some t) : EM (Option Str)) :=
  ⟨fun _ x hx => by
    have : Option.some t = Option.some x := hx
    rw [Option.some.injEq] at this; rw [← this]; exact h⟩
theorem RestsO.opt {t : Str} {b : Bool} (h : t <:+ r) : RestsO C r (Pure.pure (if b then Option.some t else Option.none) : EM (Option Str)) := by
  cases b
  · exact RestsO.none
  · exact RestsO.some h
theorem RestsO.of {m : EM Str} (h : Rests C r m) : RestsO C r (m >>= fun x => Pure.pure (Option.some x)) :=
  ⟨fun st x hx => by
    have : Option.some (m C st).1 = Option.some x := hx
    rw [Option.some.injEq] at this; rw [← this]; exact h.out st⟩

theorem Rests.getD {m : EM (Option Str)} {t : Str} (h : RestsO C r m) (ht : t <:+ r) : Rests C r (m >>= fun x => Pure.pure (x.getD t)) := by
  refine ⟨fun st => ?_⟩
  show ((m C st).1.getD t) <:+ r
  cases hm : (m C st).1 with
  | none => exact ht
  | some x => exact h.out st x hm

theorem Rests.mono {t : Str} {m : EM Str} (h : Rests C t m) (ht : t <:+ r) : Rests C r m := ⟨fun st => (h.out st).trans ht⟩

end

/-- Decompose a method down to its answers. -/
macro "rests" : tactic => `(tactic| repeat' (first
  | assumption
  | infer_instance
  | (refine RestsO.none)
  | (refine Rests.pure ?_)
  | (refine RestsO.some ?_)
  | (refine RestsO.opt ?_)
  | (refine Rests.bind ?_)
  | (refine RestsO.bind ?_)
  | (refine Rests.iteQ ?_ ?_)
  | (refine RestsO.iteQ ?_ ?_)
  | intro _
  | exact List.suffix_refl _
  | exact List.nil_suffix
  | exact untilEnd_suffix _ _
  | exact untilClose_suffix _ _
  | exact skipGt_suffix _
  | exact List.tail_suffix _
  | exact List.suffix_cons _ _
  | split
  | dsimp only))

section
variable {C : Cfg}

instance (name s : Str) : Rests C s (rawtextAsText name s) := by unfold rawtextAsText; rests
instance (name : Str) (attrs : Attrs) (s : Str) : Rests C s (rcdataElement name attrs s) := by unfold rcdataElement; rests
instance (name : Str) (attrs : Attrs) (sc : Bool) (s : Str) : Rests C s (rawtextElement name attrs sc s) := by unfold rawtextElement; rests
instance (name : Str) (attrs : Attrs) (sc : Bool) (s : Str) : Rests C s (plaintextElement name attrs sc s) := by unfold plaintextElement; rests
instance (s : Str) : Rests C s (plaintextAsText s) := by unfold plaintextAsText; rests
instance (name s : Str) : Rests C s (rawLiteralText name s) := by unfold rawLiteralText; rests
instance (name s : Str) : Rests C s (skipRawtext name s) := by unfold skipRawtext; rests
instance (s : Str) : Rests C s (parseDoctype s) := by
  unfold parseDoctype
  refine Rests.bind fun _ => Rests.pure ?_
  exact (List.tail_suffix _).trans (dw _ _)
instance (t : Tag) : Rests C t.pos (dropRawtext t) := by unfold dropRawtext; rests
instance (s : Str) : Rests C s (bogusEnd s) := by unfold bogusEnd; rests

instance (s : Str) : Rests C s (compiledEndTag s) := by
  unfold compiledEndTag
  split
  · rests
  · split
    · rests
    · refine Rests.bind fun _ => Rests.bind fun _ => Rests.bind fun _ => Rests.bind fun _ => Rests.pure ?_
      split
      · exact (List.tail_suffix _).trans (splitName_suffix _)
      · exact (skipAttrs_suffix _).trans (splitName_suffix _)

instance (s : Str) : Rests C s (endTag s) := by
  unfold endTag
  split
  · rests
  · split
    · rests
    · refine Rests.bind fun _ => Rests.bind fun _ => Rests.bind fun _ => ⟨fun st => ?_⟩
      show (if (allAttrs C _).ok then (allAttrs C _).rest else []) <:+ _
      split
      · exact (allAttrs_suffix C _).trans (splitName_suffix _)
      · exact List.nil_suffix

instance (s : Str) : Rests C s (safeEndTag s) := by unfold safeEndTag; rests

/-! ### Start tags -/

instance (pos : Str) (c : Cfg → St → Bool) (m : EM Unit) : RestsO C pos (retIf pos c m) := by unfold retIf; rests
instance (r : Str) (c : Cfg → St → Bool) (m : EM Str) [h : Rests C r m] : RestsO C r (retWith c m) := by
  unfold retWith
  exact RestsO.iteQ (RestsO.of h) RestsO.none
instance (r : Str) (c : Cfg → St → Bool) (m : EM Unit) : RestsO C r (goIf c m) := by unfold goIf; rests
instance (pos : Str) (c : Cfg → St → Bool) (m : EM Bool) : RestsO C pos (retOk pos c m) := by unfold retOk; rests
instance (t : Tag) : RestsO C t.pos (startNoscript t) := by unfold startNoscript; rests
instance (t : Tag) : RestsO C t.pos (safeNoscript t) := by unfold safeNoscript; rests
instance (t : Tag) : RestsO C t.pos (startInFrameset t) := by
  unfold startInFrameset
  refine RestsO.iteQ ?_ RestsO.none
  split
  · exact RestsO.of inferInstance
  · rests

theorem chainR_rests {r : Str} : ∀ l : List (EM (Option Str)), (∀ m ∈ l, RestsO C r m) → RestsO C r (chainR l)
  | [], _ => RestsO.none
  | m :: l, h => by
    refine ⟨fun st x hx => ?_⟩
    have hm := (h m List.mem_cons_self).out st
    have e : (chainR (m :: l) C st).1 = (match (m C st).1 with | some r => (some r, (m C st).2) | none => chainR l C (m C st).2).1 := by
      show ((match (m C st).1 with | some r => (pure (some r) : EM (Option Str)) | none => chainR l) C (m C st).2).1 = _
      cases (m C st).1 <;> rfl
    rw [e] at hx
    cases ho : (m C st).1 with
    | some y => rw [ho] at hx; exact hm x (by rw [ho]; exact hx)
    | none => rw [ho] at hx; exact (chainR_rests l (fun m' hm' => h m' (List.mem_cons_of_mem _ hm'))).out _ x hx

theorem startTests1_rests (t : Tag) : ∀ m ∈ startTests1 t, RestsO C t.pos m := by
  intro m hm
  simp only [startTests1, List.mem_cons, List.not_mem_nil, or_false] at hm
  rcases hm with rfl | rfl | rfl | rfl | rfl | rfl | rfl | rfl | rfl | rfl | rfl | rfl <;> infer_instance

theorem startTests2_rests (t : Tag) : ∀ m ∈ startTests2 t, RestsO C t.pos m := by
  intro m hm
  simp only [startTests2, List.mem_cons, List.not_mem_nil, or_false] at hm
  repeat' (rcases hm with rfl | hm; · infer_instance)
  all_goals (subst hm; infer_instance)

theorem startChain_rests (t : Tag) : Rests C t.pos (startChain t) := by
  unfold startChain
  refine ⟨fun st => ?_⟩
  have h1 := (chainR_rests _ (startTests1_rests (C := C) t)).out st
  have e : ∀ (o : Option Str) (k : EM Str) (s : St), ((match o with | some r => (pure r : EM Str) | none => k) C s).1 =
    match o with | some r => r | none => (k C s).1 := by intro o k s; cases o <;> rfl
  show ((match (chainR (startTests1 t) C st).1 with | some r => (pure r : EM Str) | none => _) C (chainR (startTests1 t) C st).2).1 <:+ _
  rw [e]
  cases ho : (chainR (startTests1 t) C st).1 with
  | some y => exact h1 y ho
  | none =>
    have : Rests C t.pos (do
      let ht ← q fun C s => usesHtmlText t.name C s
      let r ← chainR (startTests2 { t with ht := ht })
      pure (r.getD t.pos)) := Rests.bind fun ht => Rests.getD (chainR_rests _ (startTests2_rests { t with ht := ht })) (List.suffix_refl _)
    exact this.out _

instance (s : Str) : Rests C s (startTag s) := by
  unfold startTag
  refine Rests.bindCfg (Rests.bind fun _ => ?_)
  refine Rests.bind fun foreign => ?_
  dsimp only
  refine Rests.bind fun _ => ?_
  have hs : ∀ (b : Bool) (a : Option TagAction), (if b = true then allAttrs C (splitName s).2 else actionAttrs C a (splitName s).2).rest <:+ s := by
    intro b a
    split
    · exact (allAttrs_suffix C _).trans (splitName_suffix _)
    · exact (actionAttrs_suffix C _ _).trans (splitName_suffix _)
  refine Rests.ite (Rests.bind fun _ => Rests.pure (hs _ _)) ?_
  exact Rests.mono (startChain_rests _) (hs _ _)

theorem dropSubtree_rests (s : Str) (t : Tag) (hp : t.pos <:+ s) : Rests C s (dropSubtree s t) := by
  unfold dropSubtree
  split
  · infer_instance
  · refine ⟨fun st => ?_⟩
    show ((match skipSubtree C t.name t.pos with | none => startTag s | some (r, eof) => _) C st).1 <:+ s
    cases h : skipSubtree C t.name t.pos with
    | none => exact (inferInstance : Rests C s (startTag s)).out st
    | some x => exact (skipSubtree_suffix C _ _ x h).trans hp

theorem RestsO.mono {r t : Str} {m : EM (Option Str)} (h : RestsO C t m) (ht : t <:+ r) : RestsO C r m :=
  ⟨fun st x hx => (h.out st x hx).trans ht⟩

theorem safeTests_rests (s : Str) (t : Tag) (hp : t.pos <:+ s) : ∀ m ∈ safeTests s t, RestsO C s m := by
  intro m hm
  simp only [safeTests, List.mem_cons, List.not_mem_nil, or_false] at hm
  have := dropSubtree_rests (C := C) s t hp
  repeat' (rcases hm with rfl | hm; · first | infer_instance | exact RestsO.mono (t := t.pos) inferInstance hp)
  all_goals (subst hm; exact RestsO.mono (t := t.pos) inferInstance hp)

instance (s : Str) : Rests C s (safeStartTag s) := by
  unfold safeStartTag
  refine Rests.bindCfg ?_
  dsimp only
  refine Rests.iteQ inferInstance (Rests.bind fun _ => Rests.bind fun _ => ?_)
  have hs := fun a => (safeScan_suffix C a (splitName s).2).trans (splitName_suffix s)
  refine Rests.ite (Rests.pure (hs _)) (Rests.getD (chainR_rests _ (safeTests_rests s _ (hs _))) (hs _))

/-! ### The main loop -/

instance (s : Str) : Rests C s (rangeEnd s) := by unfold rangeEnd; rests
instance (s : Str) : Rests C s (rangeStart s) := by unfold rangeStart; rests
instance (s : Str) : Rests C s (rangeComment s) := by
  unfold rangeComment
  split
  · rests
  · refine Rests.bind fun _ => Rests.pure (List.drop_suffix _ _)
instance (s : Str) : Rests C s (rangeCdata s) := by
  unfold rangeCdata
  split
  · rests
  · refine Rests.bind fun _ => Rests.pure (List.drop_suffix _ _)
instance (s : Str) : Rests C s (rangeDoctype s) := by
  unfold rangeDoctype
  refine Rests.iteQ ?_ (Rests.mono (t := s.drop 7) inferInstance (List.drop_suffix _ _))
  rests
instance (s : Str) : Rests C s (rangeBogus s) := by unfold rangeBogus; rests
instance (s : Str) : Rests C s (rangeBang s) := by
  unfold rangeBang
  refine Rests.bind fun _ => Rests.ite inferInstance (Rests.iteQ (Rests.mono (t := s.drop 7) inferInstance (List.drop_suffix _ _)) ?_)
  exact Rests.ite inferInstance inferInstance
instance (s : Str) : Rests C s (rangePi s) := by unfold rangePi; rests
instance (s : Str) : Rests C s (rangeMarkup s) := by
  unfold rangeMarkup
  split
  · rests
  · rename_i c r
    have h : r <:+ c :: r := List.suffix_cons _ _
    refine Rests.ite (Rests.mono (t := r) inferInstance h) (Rests.ite inferInstance (Rests.ite (Rests.mono (t := r) inferInstance h)
      (Rests.ite (Rests.mono (t := r) inferInstance h) (Rests.ite ?_ ?_))))
    · rests
    · rests

/-- One round consumes at least one character. -/
theorem rangeStep_rest (s : Str) (hs : s ≠ []) (st : St) : (rangeStep s C st).1 <:+ s.tail := by
  have e : (rangeStep s C st).1 = ((match s.dropWhile (fun c => c ≠ '<') with | [] => (pure [] : EM Str) | _ :: r => rangeMarkup r) C
      (textRun (s.takeWhile fun c => c ≠ '<') C st).2).1 := rfl
  rw [e]
  have hd := dw (fun c => decide (c ≠ '<')) s
  cases h : s.dropWhile (fun c => decide (c ≠ '<')) with
  | nil => exact List.nil_suffix
  | cons c r =>
    rw [h] at hd
    refine ((inferInstance : Rests C r (rangeMarkup r)).out _).trans ?_
    cases s with
    | nil => exact absurd rfl hs
    | cons x s =>
      rcases List.suffix_cons_iff.1 hd with h | h
      · simp only [List.cons.injEq] at h; rw [h.2]; exact List.suffix_refl _
      · exact (List.suffix_cons c r).trans h

end

end JH.Eng
