import Verif.Props.SanKeep
import Verif.Props.SanText
import Verif.Props.SanRaw
import Verif.Props.TextOps
/-! C30: sanitizing twice is sanitizing once. -/
namespace JH
open Spec

/-- Attributes are a dict: their names are distinct. -/
def Spec.IsDict : Node → Prop
  | .elem _ _ as _ _ _ => (as.map Prod.fst).Nodup
  | _ => True

/-- Sanitizing the attributes of an allowed element a second time changes nothing. -/
def Spec.AttrsSettle (S : SanEnv) (C : SanCfg) : Prop :=
  ∀ name as, S.E.U.lower name ∈ C.allowedTags → (as.map Prod.fst).Nodup → postAttrs S C name (postAttrs S C name as) = postAttrs S C name as

/-- With escaping, comments to be escaped contain no invisible characters (they are not removed from escaped comments). -/
def Spec.CommentOk (C : SanCfg) (m : Node) : Prop :=
  C.handling = .escape → C.stripInv = true → C.dropComments = true →
    match m with
    | .comment d => stripInvisible d = d
    | .pi d => stripInvisible d = d
    | _ => True

mutual
/-- Nodes that sanitizing leaves alone. -/
def Fixed (S : SanEnv) (C : SanCfg) : Node → Prop
  | .elem name ns as kids tpl content =>
    ProperName name ∧ ¬ Foreign S.E.U.lower (.elem name ns as kids tpl content) ∧ S.E.U.lower name ∈ C.allowedTags ∧
      postAttrs S C name as = as ∧ FixedL S C kids ∧ (tpl = true → FixedL S C content)
  | .doc kids => FixedL S C kids
  | .text d => C.stripInv = true → stripInvisible d = d
  | .comment _ => C.dropComments = false
  | .pi _ => C.dropComments = false
  | .doctype _ _ _ => C.dropDoctype = false
/-- The same for a list. -/
def FixedL (S : SanEnv) (C : SanCfg) : List Node → Prop
  | [] => True
  | n :: ns => Fixed S C n ∧ FixedL S C ns
end

theorem fixedL_append {S : SanEnv} {C : SanCfg} {a b : List Node} (ha : FixedL S C a) (hb : FixedL S C b) : FixedL S C (a ++ b) := by
  induction a with
  | nil => exact hb
  | cons x xs ih => exact ⟨ha.1, ih ha.2⟩

theorem fixedL_cutSeq {S : SanEnv} {C : SanCfg} {a b : List Node × Bool} (ha : FixedL S C a.1) (hb : FixedL S C b.1) : FixedL S C (cutSeq a b).1 := by
  unfold cutSeq
  split
  · exact ha
  · exact fixedL_append ha hb

theorem ifsame {α : Type} (b : Bool) (x y : α) (h : b = true → x = y) : (if b then x else y) = y := by
  cases b
  · rfl
  · exact h rfl

mutual
theorem fixed_clean (S : SanEnv) (C : SanCfg) : ∀ (n : Node), Fixed S C n → clean S C false false n = ([n], false)
  | .elem name ns as kids tpl content, h => by
    simp only [Fixed] at h
    obtain ⟨h1, h2, h3, h4, h5, h6⟩ := h
    have hs : isSpecial (.elem name ns as kids tpl content) = false := (special_iff name ns as kids tpl content).2 h1
    have hF : isForeign S.E.U (.elem name ns as kids tpl content) = false := by
      cases hh : isForeign S.E.U (.elem name ns as kids tpl content) with
      | false => rfl
      | true => exact absurd ((isForeign_iff S.E.U name ns as kids tpl content hs).1 hh) h2
    have hd : decision S.E.U C name = .keep := by
      rw [decision_keep_iff S.E.U C name ns as kids tpl content]; unfold Disallowed; simpa using h3
    have ek := fixed_cleanL S C kids h5
    have ec : tpl = true → cleanL S C false false content = (content, false) := fun ht => fixed_cleanL S C content (h6 ht)
    simp only [clean, hs, hF, hd, h4]
    simp only [Bool.or_false, Bool.and_false, Bool.false_eq_true, if_false]
    rw [ek, ifsame tpl _ _ (fun ht => by rw [ec ht])]
  | .doc kids, h => by
    simp only [Fixed] at h
    simp only [clean]
    rw [fixed_cleanL S C kids h]
  | .text d, h => by
    simp only [Fixed] at h
    simp only [clean, cleanLeaf]
    simp only [isCommentName, nodeName, finish]
    cases hi : C.stripInv <;> simp_all
  | .comment d, h => by
    simp only [Fixed] at h
    simp [clean, cleanLeaf, h, nodeName, finish, isSpecial]
  | .pi d, h => by
    simp only [Fixed] at h
    simp [clean, cleanLeaf, h, nodeName, finish, isSpecial]
  | .doctype a b c, h => by
    simp only [Fixed] at h
    simp [clean, cleanLeaf, h, nodeName, finish, isSpecial, isCommentName]
theorem fixed_cleanL (S : SanEnv) (C : SanCfg) : ∀ (l : List Node), FixedL S C l → cleanL S C false false l = (l, false)
  | [], _ => rfl
  | n :: ns, h => by
    simp only [FixedL] at h
    simp only [cleanL]
    rw [fixed_clean S C n h.1, fixed_cleanL S C ns h.2]
    rfl
end

/-- What is assumed of the nodes of the input. -/
def IdemOk (S : SanEnv) (C : SanCfg) (m : Node) : Prop := Named m ∧ HoistOk S.E.U C m ∧ CommentOk C m ∧ IsDict m

theorem fixed_textNode (S : SanEnv) (C : SanCfg) (t : Option Str) : FixedL S C (tagText C t) := by
  cases t with
  | none => simp [tagText, textNode?, FixedL]
  | some s =>
    by_cases hs : s.isEmpty
    · simp [tagText, textNode?, hs, FixedL]
    · simp only [tagText, textNode?, if_neg hs, List.map_cons, List.map_nil, FixedL, Fixed, and_true]
      intro h
      rw [if_pos h]
      exact C55_idempotent s

theorem strip_comment {d : Str} (h : stripInvisible d = d) : stripInvisible (c%"<!--" ++ d ++ c%"-->") = c%"<!--" ++ d ++ c%"-->" := by
  have a : stripInvisible c%"<!--" = c%"<!--" := by decide
  have b : stripInvisible c%"-->" = c%"-->" := by decide
  rw [C55_exact] at h a b ⊢
  rw [List.filter_append, List.filter_append, h, a, b]

mutual
theorem clean_fixed (S : SanEnv) (C : SanCfg) (hA : AttrsSettle S C) : ∀ (n : Node) (hoist : Bool),
    (hoist = true → ¬ Foreign S.E.U.lower n) → Everywhere (IdemOk S C) n → FixedL S C (clean S C hoist false n).1
  | .elem name ns as kids tpl content, hoist, hh, hE => by
    simp only [Everywhere] at hE
    obtain ⟨⟨hN, hH, -, hD⟩, hk, hc⟩ := hE
    have hP : ProperName name := hN
    have hs : isSpecial (.elem name ns as kids tpl content) = false := (special_iff name ns as kids tpl content).2 hP
    simp only [clean, hs]
    by_cases hF : Foreign S.E.U.lower (.elem name ns as kids tpl content)
    · have hho : hoist = false := by
        cases hoist
        · rfl
        · exact absurd hF (hh rfl)
      have hF' : isForeign S.E.U (.elem name ns as kids tpl content) = true := (isForeign_iff S.E.U name ns as kids tpl content hs).2 hF
      simp [hho, hF', FixedL]
    · have hF' : isForeign S.E.U (.elem name ns as kids tpl content) = false := by
        cases hx : isForeign S.E.U (.elem name ns as kids tpl content) with
        | false => rfl
        | true => exact absurd ((isForeign_iff S.E.U name ns as kids tpl content hs).1 hx) hF
      simp only [hF', Bool.or_false, Bool.and_false, Bool.false_eq_true, if_false]
      have hoistKids : Disallowed S.E.U.lower C.allowedTags (.elem name ns as kids tpl content) →
          droppedTag S.E.U C (.elem name ns as kids tpl content) = false →
          (FixedL S C (cleanL S C true false kids).1 ∧ (tpl = true → FixedL S C (cleanL S C true false content).1)) := by
        intro hD hdr
        have := hH hF hD hdr
        refine ⟨cleanL_fixed S C hA kids true (fun _ k hkk => this k ?_) hk, fun ht => cleanL_fixed S C hA content true (fun _ k hkk => this k ?_) (hc ht)⟩
        · simp only [contents]; split
          · exact List.mem_append.2 (.inl hkk)
          · exact hkk
        · simp only [contents, ht, if_true]; exact List.mem_append.2 (.inr hkk)
      have mid : Disallowed S.E.U.lower C.allowedTags (.elem name ns as kids tpl content) →
          droppedTag S.E.U C (.elem name ns as kids tpl content) = false →
          FixedL S C (cutSeq (cleanL S C true false kids) (if tpl then cleanL S C true false content else ([], false))).1 := by
        intro hD hdr
        obtain ⟨a, b⟩ := hoistKids hD hdr
        refine fixedL_cutSeq a ?_
        cases tpl
        · simp [FixedL]
        · simpa using b rfl
      cases hd : decision S.E.U C name with
      | keep =>
        have hall : S.E.U.lower name ∈ C.allowedTags := by
          have := (decision_keep_iff S.E.U C name ns as kids tpl content).1 hd
          simpa [Disallowed] using this
        simp only [FixedL, Fixed, and_true]
        refine ⟨hP, ?_, hall, hA name as hall hD, cleanL_fixed S C hA kids false (by simp) hk, ?_⟩
        · simpa [Foreign] using hF
        · intro ht
          rw [if_pos ht]
          exact cleanL_fixed S C hA content false (by simp) (hc ht)
      | drop => simp [FixedL]
      | unwrap =>
        refine mid ?_ ?_
        · intro hx
          have := (decision_keep_iff S.E.U C name ns as kids tpl content).2 (by simpa [Disallowed] using hx)
          rw [hd] at this; simp at this
        · cases hx : droppedTag S.E.U C (.elem name ns as kids tpl content) with
          | false => rfl
          | true => have := (decision_drop_iff S.E.U C name ns as kids tpl content).2 hx; rw [hd] at this; simp at this
      | escape =>
        have := mid ?_ ?_
        · exact fixedL_cutSeq (fixed_textNode S C _) (fixedL_cutSeq this (fixed_textNode S C _))
        · intro hx
          have := (decision_keep_iff S.E.U C name ns as kids tpl content).2 (by simpa [Disallowed] using hx)
          rw [hd] at this; simp at this
        · cases hx : droppedTag S.E.U C (.elem name ns as kids tpl content) with
          | false => rfl
          | true => have := (decision_drop_iff S.E.U C name ns as kids tpl content).2 hx; rw [hd] at this; simp at this
  | .doc kids, hoist, hh, hE => by
    simp only [Everywhere] at hE
    simp only [clean, FixedL, Fixed, and_true]
    exact cleanL_fixed S C hA kids false (by simp) hE.2
  | .text d, hoist, hh, hE => by
    simp only [clean, cleanLeaf]
    rw [if_neg (by simp [isCommentName, nodeName]), if_neg (by simp [nodeName])]
    simp only [finish, FixedL, Fixed, and_true]
    intro h
    rw [if_pos h]
    exact C55_idempotent d
  | .comment d, hoist, hh, hE => by
    simp only [Everywhere] at hE
    obtain ⟨-, -, hC⟩ := hE
    simp only [clean, cleanLeaf]
    cases hdc : C.dropComments with
    | false => simp [FixedL, Fixed, finish, isSpecial, nodeName, hdc]
    | true =>
      rw [if_pos ⟨rfl, by simp [isCommentName, nodeName]⟩]
      unfold commentRes
      split
      · rename_i he
        simp only [FixedL, Fixed, and_true]
        intro hi
        exact strip_comment (hC.1 he hi hdc)
      · simp [FixedL]
  | .pi d, hoist, hh, hE => by
    simp only [Everywhere] at hE
    obtain ⟨-, -, hC⟩ := hE
    simp only [clean, cleanLeaf]
    cases hdc : C.dropComments with
    | false => simp [FixedL, Fixed, finish, isSpecial, nodeName, hdc]
    | true =>
      rw [if_pos ⟨rfl, by simp [isCommentName, nodeName]⟩]
      unfold commentRes
      split
      · rename_i he
        simp only [FixedL, Fixed, and_true]
        intro hi
        exact strip_comment (hC.1 he hi hdc)
      · simp [FixedL]
  | .doctype a b c, hoist, hh, hE => by
    simp only [clean, cleanLeaf]
    cases hdc : C.dropDoctype with
    | false => simp [FixedL, Fixed, finish, isSpecial, nodeName, hdc, isCommentName]
    | true => simp [FixedL, isCommentName, nodeName]
theorem cleanL_fixed (S : SanEnv) (C : SanCfg) (hA : AttrsSettle S C) : ∀ (l : List Node) (hoist : Bool),
    (hoist = true → ∀ n ∈ l, ¬ Foreign S.E.U.lower n) → EverywhereL (IdemOk S C) l → FixedL S C (cleanL S C hoist false l).1
  | [], _, _, _ => by simp [cleanL, FixedL]
  | n :: ns, hoist, hh, hE => by
    simp only [EverywhereL] at hE
    simp only [cleanL]
    exact fixedL_cutSeq (clean_fixed S C hA n hoist (fun h => hh h n (by simp)) hE.1)
      (cleanL_fixed S C hA ns hoist (fun h x hx => hh h x (by simp [hx])) hE.2)
end

/-! ### Hardening -/

theorem textsOf_hardened (U : Uni) (name : Str) (hn : name ∈ [c%"script", c%"style"]) (kids : List Node) :
    hardenKids U name (hardenKids U name kids) = hardenKids U name kids := by
  have h1 : name.all isAscii = true ∧ '&' ∉ name := by
    simp only [List.mem_cons, List.not_mem_nil, or_false] at hn
    rcases hn with rfl | rfl <;> decide
  have hno := C08_no_end_tag U name (textsOf kids).flatten h1.1 h1.2
  have hun := C09_unchanged U name _ h1.1 hno
  cases he : (textsOf kids).isEmpty with
  | true =>
    have : hardenKids U name kids = [] := by unfold hardenKids; simp [he]
    rw [this]; rfl
  | false =>
    generalize hr : neutralize (asciiLower U) name (textsOf kids).flatten = r at hun hno
    have e : hardenKids U name kids = if (decide (name = c%"style") && !r.1.isEmpty && cssDisallowed r.1 false) = true then []
        else if r.2 = true then (if r.1.isEmpty = true then [] else [.text r.1]) else (textsOf kids).map Node.text := by
      unfold hardenKids; simp only [he, hr]; rfl
    by_cases hc : (decide (name = c%"style") && !r.1.isEmpty && cssDisallowed r.1 false) = true
    · rw [e, if_pos hc]; rfl
    · rw [e, if_neg hc]
      cases h2 : r.2 with
      | true =>
        rw [if_pos rfl]
        cases h3 : r.1.isEmpty with
        | true => rfl
        | false =>
          have : hardenKids U name [.text r.1] = [.text r.1] := by
            unfold hardenKids
            simp only [textsOf, List.flatten_cons, List.flatten_nil, List.append_nil, hun]
            simp only [List.isEmpty_cons, Bool.false_eq_true, if_false, List.map_cons, List.map_nil]
            rw [if_neg hc]
          simpa using this
      | false =>
        rw [if_neg (by simp)]
        have hk : (textsOf kids).flatten = r.1 := by
          have hx : (neutralize (asciiLower U) name (textsOf kids).flatten).2 = false := by rw [hr]; exact h2
          rw [← hr]
          revert hx
          unfold neutralize
          dsimp only
          generalize neutLoop _ _ _ _ _ _ = q
          obtain ⟨a, b, c⟩ := q
          cases c <;> simp
        unfold hardenKids
        simp only [textsOf_map, he, hk, hun, Bool.false_eq_true, if_false]
        rw [if_neg hc]

mutual
theorem harden_idem (U : Uni) : ∀ (n : Node), harden U (harden U n) = harden U n
  | .elem name ns as kids tpl content => by
    by_cases h : rawtextElements.contains (U.lower name) = true
    · simp only [harden, if_pos h]
      rw [textsOf_hardened]
      simpa [rawtextElements] using h
    · simp only [harden, if_neg h]
      rw [hardenL_idem U kids]
      cases tpl
      · rfl
      · simp [hardenL_idem U content]
  | .doc kids => by simp only [harden, hardenL_idem U kids]
  | .text d => by simp [harden]
  | .comment d => by simp [harden]
  | .pi d => by simp [harden]
  | .doctype a b c => by simp [harden]
theorem hardenL_idem (U : Uni) : ∀ (l : List Node), hardenL U (hardenL U l) = hardenL U l
  | [] => rfl
  | n :: ns => by simp only [hardenL, harden_idem U n, hardenL_idem U ns]
end

/-- The characters of hardened text come from the text or from `&lt;`. -/
theorem neutLoop_chars (needle : Str) : ∀ (fuel : Nat) (t l out : Str) (ch : Bool) (o r : Str) (c' : Bool),
    neutLoop needle fuel t l out ch = (o, r, c') → ∀ c, c ∈ o ++ r → c ∈ out ∨ c ∈ t ∨ c ∈ c%"&lt;" := by
  intro fuel
  induction fuel with
  | zero =>
    intro t l out ch o r c' h c hc
    simp only [neutLoop, Prod.mk.injEq] at h
    obtain ⟨rfl, rfl, rfl⟩ := h
    rcases List.mem_append.1 hc with hc | hc
    · exact .inl hc
    · exact .inr (.inl hc)
  | succ n ih =>
    intro t l out ch o r c' h c hc
    simp only [neutLoop] at h
    split at h
    · simp only [Prod.mk.injEq] at h
      obtain ⟨rfl, rfl, rfl⟩ := h
      rcases List.mem_append.1 hc with hc | hc
      · exact .inl hc
      · exact .inr (.inl hc)
    · rename_i k _
      split at h
      · rcases ih _ _ _ _ _ _ _ h c hc with hx | hx | hx
        · rcases List.mem_append.1 hx with hx | hx
          · rcases List.mem_append.1 hx with hx | hx
            · exact .inl hx
            · exact .inr (.inl (List.mem_of_mem_take hx))
          · exact .inr (.inr hx)
        · exact .inr (.inl (List.mem_of_mem_drop hx))
        · exact .inr (.inr hx)
      · rcases ih _ _ _ _ _ _ _ h c hc with hx | hx | hx
        · exact .inl hx
        · exact .inr (.inl (List.mem_of_mem_drop hx))
        · exact .inr (.inr hx)

theorem neutralize_chars (fold : Str → Str) (tag text : Str) (c : Char) (h : c ∈ (neutralize fold tag text).1) : c ∈ text ∨ c ∈ c%"&lt;" := by
  revert h
  unfold neutralize
  dsimp only
  rcases hres : neutLoop (c%"</" ++ tag) (text.length + 1) text (fold text) [] false with ⟨out, rest, ch⟩
  cases ch
  · intro h; exact .inl (by simpa using h)
  · intro h
    rcases neutLoop_chars _ _ _ _ _ _ _ _ _ hres c (by simpa using h) with hx | hx | hx
    · simp at hx
    · exact .inl hx
    · exact .inr hx

theorem strip_id_iff (v : Str) : stripInvisible v = v ↔ ∀ c ∈ v, ¬ Invisible c := by
  rw [C55_exact, List.filter_eq_self]; simp

theorem fixed_texts {S : SanEnv} {C : SanCfg} : ∀ {kids : List Node}, FixedL S C kids → C.stripInv = true → ∀ d ∈ textsOf kids, stripInvisible d = d := by
  intro kids
  induction kids with
  | nil => intro _ _ d hd; simp [textsOf] at hd
  | cons n ns ih =>
    intro h hi d hd
    simp only [FixedL] at h
    cases n with
    | text x =>
      simp only [textsOf, List.mem_cons] at hd
      rcases hd with rfl | hd
      · have := h.1; simp only [Fixed] at this; exact this hi
      · exact ih h.2 hi d hd
    | _ => exact ih h.2 hi d (by simpa [textsOf] using hd)

theorem fixedL_of {S : SanEnv} {C : SanCfg} {l : List Node} (h : ∀ n ∈ l, Fixed S C n) : FixedL S C l := by
  induction l with
  | nil => trivial
  | cons a l ih => exact ⟨h a (by simp), ih fun n hn => h n (by simp [hn])⟩

theorem fixed_hardenKids (S : SanEnv) (C : SanCfg) (name : Str) (kids : List Node) (h : FixedL S C kids) : FixedL S C (hardenKids S.E.U name kids) := by
  have ht := fixed_texts h
  unfold hardenKids
  dsimp only
  split
  · trivial
  · split
    · trivial
    · split
      · split
        · trivial
        · simp only [FixedL, Fixed, and_true]
          intro hi
          rw [strip_id_iff]
          intro c hc
          rcases neutralize_chars _ _ _ c hc with hx | hx
          · obtain ⟨d, hd, hcd⟩ := List.mem_flatten.1 hx
            exact (strip_id_iff d).1 (ht hi d hd) c hcd
          · exact (strip_id_iff c%"&lt;").1 (by decide) c hx
      · apply fixedL_of
        intro n hn
        obtain ⟨d, hd, rfl⟩ := List.mem_map.1 hn
        simp only [Fixed]
        intro hi
        exact ht hi d hd

mutual
theorem fixed_harden (S : SanEnv) (C : SanCfg) : ∀ (n : Node), Fixed S C n → Fixed S C (harden S.E.U n)
  | .elem name ns as kids tpl content, h => by
    simp only [Fixed] at h
    obtain ⟨h1, h2, h3, h4, h5, h6⟩ := h
    simp only [harden]
    split
    · simp only [Fixed]
      exact ⟨h1, by simpa [Foreign] using h2, h3, h4, fixed_hardenKids S C _ kids h5, h6⟩
    · simp only [Fixed]
      refine ⟨h1, by simpa [Foreign] using h2, h3, h4, fixed_hardenL S C kids h5, ?_⟩
      intro ht
      rw [if_pos ht]
      exact fixed_hardenL S C content (h6 ht)
  | .doc kids, h => by
    simp only [Fixed] at h
    simp only [harden, Fixed]
    exact fixed_hardenL S C kids h
  | .text d, h => by simpa [harden] using h
  | .comment d, h => by simpa [harden] using h
  | .pi d, h => by simpa [harden] using h
  | .doctype a b c, h => by simpa [harden] using h
theorem fixed_hardenL (S : SanEnv) (C : SanCfg) : ∀ (l : List Node), FixedL S C l → FixedL S C (hardenL S.E.U l)
  | [], _ => trivial
  | n :: ns, h => by
    simp only [FixedL] at h
    simp only [hardenL, FixedL]
    exact ⟨fixed_harden S C n h.1, fixed_hardenL S C ns h.2⟩
end

/-- The output of the sanitizer is fixed and hardened. -/
theorem sanitizeKids_fixed (S : SanEnv) (C : SanCfg) (hA : AttrsSettle S C) (l : List Node) (hE : EverywhereL (IdemOk S C) l) :
    FixedL S C (sanitizeKids S C l) ∧ sanitizeKids S C (sanitizeKids S C l) = sanitizeKids S C l := by
  have h1 := cleanL_fixed S C hA l false (by simp) hE
  rw [sanitizeKids_clean S C l]
  split
  · rename_i hr
    have h2 := fixed_hardenL S C _ h1
    refine ⟨h2, ?_⟩
    rw [sanitizeKids_clean, if_pos hr, fixed_cleanL S C _ h2, hardenL_idem]
  · rename_i hr
    refine ⟨h1, ?_⟩
    rw [sanitizeKids_clean, if_neg hr, fixed_cleanL S C _ h1]

theorem sanitizeRoot_idem (S : SanEnv) (C : SanCfg) (hA : AttrsSettle S C) (root : Node) (hE : Everywhere (IdemOk S C) root) :
    sanitizeRoot S C (sanitizeRoot S C root) = sanitizeRoot S C root := by
  have key : ∀ l, EverywhereL (IdemOk S C) l → ∀ x, (match sanitizeKids S C l with | [only] => only | l => .doc l) = x →
      sanitizeRoot S C x = x := by
    intro l hl x hx
    obtain ⟨hf, hi⟩ := sanitizeKids_fixed S C hA l hl
    generalize hs : sanitizeKids S C l = out at hf hi hx
    match out, hx with
    | [], hx => subst hx; simp only [sanitizeRoot, hi]
    | a :: b :: r, hx => subst hx; simp only [sanitizeRoot, hi]
    | [only], hx =>
      subst hx
      cases only with
      | doc kids =>
        simp only [sanitizeRoot]
        rw [sanitizeKids_clean] at hi
        simp only [FixedL, Fixed, and_true] at hf
        have e1 : cleanL S C false false kids = (kids, false) := fixed_cleanL S C _ hf
        have e2 : cleanL S C false false [Node.doc kids] = ([Node.doc kids], false) := fixed_cleanL S C _ ⟨by simpa [Fixed] using hf, trivial⟩
        rw [e2] at hi
        rw [sanitizeKids_clean, e1]
        split
        · rename_i hr
          rw [if_pos hr] at hi
          simpa [hardenL, harden] using hi
        · rfl
      | _ => simp only [sanitizeRoot]; rw [hi]
  cases root with
  | doc kids =>
    simp only [Everywhere] at hE
    simp only [sanitizeRoot]
    rw [(sanitizeKids_fixed S C hA kids hE.2).2]
  | _ => exact key [_] ⟨hE, trivial⟩ _ rfl

end JH
