import Verif.Lemmas.EngRead
import Verif.Props.Markup
/-! How the engine reads any attributes that the serializer writes (C107). -/
namespace JH.Eng
open JH.Spec

theorem newlines_escape {q : Char} (hq : q = '"' ∨ q = '\'') : ∀ v : Str, newlines (v.flatMap (escA1 q)) = (newlines v).flatMap (escA1 q) := by
  have hr : escA1 q '\r' = ['\r'] := by rcases hq with rfl | rfl <;> rfl
  have hn : escA1 q '\n' = ['\n'] := by rcases hq with rfl | rfl <;> rfl
  have ht : ∀ (a b : Str), '\r' ∉ a → newlines (a ++ b) = a ++ newlines b := by
    intro a b
    induction a with
    | nil => intro _; rfl
    | cons c a ih =>
      intro h
      simp only [List.mem_cons, not_or] at h
      rw [List.cons_append, newlines.eq_def]
      split
      · next e => exact absurd e (by simp)
      · next e => exact absurd (List.cons.inj e).1.symm h.1
      · next e => exact absurd (List.cons.inj e).1.symm h.1
      · next e => exact absurd (List.cons.inj e).1.symm h.1
      · next c' r' _ _ _ e =>
        obtain ⟨rfl, rfl⟩ := List.cons.inj e
        rw [ih h.2]; rfl
  have hne : ∀ c, c ≠ '\r' → '\r' ∉ escA1 q c := by
    intro c hc
    unfold escA1 esc1
    repeat' split
    all_goals first | (rcases hq with rfl | rfl <;> decide) | decide | (simp only [List.mem_singleton]; exact fun e => hc e.symm)
  have hhead : ∀ c, c ≠ '\n' → (escA1 q c).head? ≠ some '\n' := by
    intro c hc
    unfold escA1 esc1
    repeat' split
    all_goals first | (rcases hq with rfl | rfl <;> decide) | decide | (simp only [List.head?_cons, ne_eq, Option.some.injEq]; exact hc)
  have hpos : ∀ c, escA1 q c ≠ [] := by
    intro c
    unfold escA1 esc1
    repeat' split
    all_goals first | (rcases hq with rfl | rfl <;> decide) | decide | simp
  have hcr : ∀ b : Str, b.head? ≠ some '\n' → newlines ('\r' :: b) = '\n' :: newlines b := by
    intro b hb
    cases b with
    | nil => rfl
    | cons x b =>
      rw [newlines.eq_def]
      split
      · next e => exact absurd e (by simp)
      · next e => exact absurd e (by simp)
      · next e => simp at e; rw [e.1] at hb; simp at hb
      · next e => simp at e; rw [e.1, e.2]
      · next h1 h2 h3 e =>
        obtain ⟨rfl, rfl⟩ := List.cons.inj e
        exact absurd rfl (h3 x b rfl)
  intro v
  induction v using newlines.induct with
  | case1 => rfl
  | case2 => simp [hr, hn, newlines]
  | case3 r ih =>
    simp only [List.flatMap_cons, hr, hn, newlines, List.cons_append, List.nil_append, ih]
  | case4 c r hc ih =>
    have e1 : newlines ('\r' :: c :: r) = '\n' :: newlines (c :: r) := hcr _ (by simpa using hc)
    rw [e1, List.flatMap_cons, hr]
    simp only [List.cons_append, List.nil_append]
    rw [hcr, ih, List.flatMap_cons, hn]
    · rfl
    · rw [List.flatMap_cons]
      cases h : escA1 q c with
      | nil => exact absurd h (hpos c)
      | cons x y =>
        have := hhead c hc
        rw [h] at this
        simpa using this
  | case5 c r h1 h2 h3 ih =>
    have hc : c ≠ '\r' := by
      rintro rfl
      cases r with
      | nil => exact h1 rfl rfl
      | cons x r => exact h3 x r rfl rfl
    have e1 : newlines (c :: r) = c :: newlines r := by
      have := ht [c] r (by simpa using Ne.symm hc)
      simpa using this
    rw [e1, List.flatMap_cons, List.flatMap_cons, ht _ _ (hne c hc), ih]

/-! ### One attribute -/

/-- What is read of an attribute that is written: the name in lower case, and the value, or nothing where the value may be left out. -/
def ReadAs (C : Cfg) (U : Uni) (a kv : Str × Option Str) : Prop :=
  kv.1 = nulFix (foldName C a.1) ∧
    (kv.2 = some (nulFix (newlines (a.2.getD []))) ∨ (kv.2 = some [] ∧ ∃ v, a.2 = some v ∧ U.lower v = U.lower a.1))

/-- The three ways in which an attribute is written. -/
theorem written (C : Cfg) (U : Uni) (o : TagOpts) (ho : o.quoteAttrValues = true) (tag : Str) (a : Str × Option Str) :
    ∃ Z raw, serializeAttr U o tag a.1 a.2 = ' ' :: (a.1 ++ Z) ∧ (∀ c, Z.head? = some c → c = '=') ∧
      (∀ Y, Follows Y → ∃ rest, lstripP isHtmlSpace rest = lstripP isHtmlSpace Y ∧ rawValue (lstripP isHtmlSpace (Z ++ Y)) = some (raw, rest)) ∧
      ∀ v, decodeVal C (newlines raw) = some v → ReadAs C U a (nulFix (foldName C a.1), some (nulFix v)) := by
  have hq0 : ∀ Y, lstripP isHtmlSpace (c%"=\"\"" ++ Y) = c%"=\"\"" ++ Y := fun Y => by simp [lstripP, isHtmlSpace]
  unfold serializeAttr
  split
  · next hm =>
    refine ⟨[], [], by simp, by simp, fun Y hY => ⟨lstripP isHtmlSpace Y, strip_idem Y, rawValue_none hY.strip⟩, fun v hv => ⟨rfl, ?_⟩⟩
    have : v = [] := (Option.some.inj hv).symm
    subst this
    unfold minimized at hm
    simp only [Bool.and_eq_true] at hm
    cases h2 : a.2 with
    | none => exact .inl rfl
    | some w =>
      rw [h2] at hm
      simp only [Bool.or_eq_true, Bool.and_eq_true, decide_eq_true_eq] at hm
      rcases hm.2 with he | he
      · rw [List.isEmpty_iff.1 he]; exact .inl rfl
      · exact .inr ⟨rfl, w, rfl, he.2⟩
  · dsimp only
    split
    · next he =>
      refine ⟨c%"=\"\"", [], by simp, by simp, fun Y hY => ⟨Y, rfl, ?_⟩, fun v hv => ⟨rfl, .inl ?_⟩⟩
      · rw [hq0]
        simp [rawValue, lstripP, List.dropWhile, isHtmlSpace, splitAt1]
      · have : v = [] := (Option.some.inj hv).symm
        rw [this, List.isEmpty_iff.1 he]; rfl
    · next he =>
      simp only [ho, Bool.not_true, Bool.false_and, Bool.false_eq_true, if_false]
      have hq := C02_quote_choice o.quoteChar (a.2.getD [])
      generalize chooseAttrQuote o.quoteChar (a.2.getD []) = qu at hq
      have hn := (C02_attr_contained _ hq (a.2.getD [])).1
      refine ⟨'=' :: qu :: escapeAttr qu (a.2.getD []) ++ [qu], escapeAttr qu (a.2.getD []), by simp, by simp, fun Y hY => ⟨Y, rfl, ?_⟩, fun v hv => ⟨rfl, .inl ?_⟩⟩
      · have e1 : lstripP isHtmlSpace (('=' :: qu :: escapeAttr qu (a.2.getD []) ++ [qu]) ++ Y) = '=' :: qu :: (escapeAttr qu (a.2.getD []) ++ qu :: Y) := by
          simp [lstripP, isHtmlSpace]
        rw [e1, rawValue]
        have e2 : lstripP isHtmlSpace (qu :: (escapeAttr qu (a.2.getD []) ++ qu :: Y)) = qu :: (escapeAttr qu (a.2.getD []) ++ qu :: Y) := by
          rcases hq with rfl | rfl <;> simp [lstripP, List.dropWhile, isHtmlSpace]
        rw [e2]
        dsimp only
        rw [if_pos (by rcases hq with rfl | rfl <;> simp), splitAt1_append hn]
      · rw [escapeAttr_eq hq, newlines_escape hq, ← escapeAttr_eq hq] at hv
        have h := C02_attr_roundtrip C.E.U C.T qu hq (newlines (a.2.getD []))
        unfold decodeVal at hv
        split at hv
        · rw [h] at hv; rw [Option.some.inj hv]
        · next hc =>
          have hc' : '&' ∉ escapeAttr qu (newlines (a.2.getD [])) := by simpa using hc
          rw [C14_no_amp_unchanged C.E.U C.T true _ hc'] at h
          rw [← Option.some.inj hv, Option.some.inj h]

theorem attrName_chars {k : Str} (hv : validAttrName k = true) (hn : '\n' ∉ k) : k ≠ [] ∧ ∀ c ∈ k, isAttrStop c = false ∧ isHtmlSpace c = false ∧ c ≠ '>' ∧ c ≠ '/' ∧ c ≠ '=' := by
  have hd : dropNL k = k := by
    unfold dropNL
    split
    · next r hr => exact absurd (List.mem_reverse.1 (by rw [hr]; simp)) hn
    · rfl
  unfold validAttrName at hv
  rw [hd] at hv
  simp only [Bool.and_eq_true, Bool.not_eq_true', List.all_eq_true] at hv
  refine ⟨by rintro rfl; simp at hv, fun c hc => ?_⟩
  have h := hv.2 c hc
  have hcn : c ≠ '\n' := fun e => hn (e ▸ hc)
  unfold attrNameChar tagNameChar at h
  unfold isAttrStop isAttrNameStop isTagNameStop isHtmlSpace
  simp at h
  grind

/-- What the general attribute scanner reads from written attributes. -/
theorem allAttrsF_written (C : Cfg) (U : Uni) (o : TagOpts) (ho : o.quoteAttrValues = true) (tag rest : Str) : ∀ (as : List (Str × Option Str)) (n : Nat) (acc : Attrs) (s : Str),
    lstripP isHtmlSpace s = lstripP isHtmlSpace (as.flatMap (fun a => serializeAttr U o tag a.1 a.2) ++ '>' :: rest) →
    (∀ a ∈ as, validAttrName a.1 = true ∧ '\n' ∉ a.1) → ∀ kv ∈ (allAttrsF C n acc s).attrs, kv ∈ acc ∨ ∃ a ∈ as, ReadAs C U a kv
  | _, 0, acc, s, _, _, kv, h => .inl h
  | [], n + 1, acc, s, hs, _, kv, h => by
    rw [allAttrsF_strip C n acc hs] at h
    left
    simpa [allAttrsF, lstripP, isHtmlSpace] using h
  | a :: as, n + 1, acc, s, hs, hg, kv, h => by
    obtain ⟨Z, raw, h1, h2, h3, h4⟩ := written C U o ho tag a
    have hfol : Follows (as.flatMap (fun a => serializeAttr U o tag a.1 a.2) ++ '>' :: rest) := by
      cases as with
      | nil => exact ⟨rest, 'x', .inl rfl⟩
      | cons b as =>
        obtain ⟨Z', raw', k1, -⟩ := written C U o ho tag b
        obtain ⟨hne, hch⟩ := attrName_chars (hg b (by simp)).1 (hg b (by simp)).2
        cases hk : b.1 with
        | nil => exact absurd hk hne
        | cons c r =>
          rw [hk] at hch
          refine ⟨?_, c, .inr ⟨?_, (hch c (by simp)).2.1, (hch c (by simp)).2.2.2.2⟩⟩
          rotate_left
          · rw [List.flatMap_cons, k1, hk]
            simp only [List.cons_append, List.append_assoc]
            rfl
    generalize hY : as.flatMap (fun a => serializeAttr U o tag a.1 a.2) ++ '>' :: rest = Y at hfol
    obtain ⟨rst, h5, h6⟩ := h3 Y hfol
    obtain ⟨hne, hch⟩ := attrName_chars (hg a (by simp)).1 (hg a (by simp)).2
    obtain ⟨c, r, hkey⟩ : ∃ c r, a.1 = c :: r := by
      cases hk : a.1 with
      | nil => exact absurd hk hne
      | cons c r => exact ⟨c, r, rfl⟩
    rw [hkey] at hch
    have hc := hch c (by simp)
    have hzstop : ∀ x, (Z ++ Y).head? = some x → isAttrStop x = true := by
      intro x hx
      cases Z with
      | nil => rcases hfol.head with h | h <;> rw [List.nil_append] at hx <;> rw [h] at hx <;> injection hx with hx <;> subst hx <;> rfl
      | cons z Z =>
        have := h2 z rfl
        subst this
        injection hx with hx; subst hx; rfl
    have e0 : lstripP isHtmlSpace ((' ' :: (a.1 ++ Z)) ++ Y) = c :: (r ++ (Z ++ Y)) := by
      rw [hkey]
      simp [lstripP, List.dropWhile, hc.2.1, show isHtmlSpace ' ' = true from rfl]
    have htw := takeWhile_append_stop (p := fun x => !isAttrStop x) (a := r) (b := Z ++ Y)
      (fun x hx => by simp [(hch x (by simp [hx])).1]) (fun x hx => by simp [hzstop x hx])
    rw [allAttrsF_strip C n acc hs, List.flatMap_cons, List.append_assoc, hY, h1, allAttrsF, e0] at h
    dsimp only at h
    rw [htw.1, htw.2, h6, if_neg hc.2.2.1, if_neg (by simp [hc.2.2.2.1]), if_neg hc.2.2.2.1] at h
    dsimp only at h
    cases hd : decodeVal C (newlines raw) with
    | none => rw [hd] at h; exact .inl h
    | some v =>
      rw [hd] at h
      dsimp only at h
      have hr := h4 v hd
      rw [hkey] at hr
      rcases allAttrsF_written C U o ho tag rest as n _ rst (by rw [hY]; exact h5) (fun a ha => hg a (by simp [ha])) kv h with h | ⟨b, hb, h⟩
      · split at h
        · exact .inl h
        · rcases List.mem_append.1 h with h | h
          · exact .inl h
          · right
            refine ⟨a, by simp, ?_⟩
            rw [List.mem_singleton.1 h]
            rw [← hkey] at hr ⊢
            exact h4 v hd
      · exact .inr ⟨b, by simp [hb], h⟩

/-- What is read from the attributes of a start tag that the serializer wrote. -/
theorem allAttrs_written (C : Cfg) (U : Uni) (o : TagOpts) (ho : o.quoteAttrValues = true) (tag rest : Str) (as : List (Str × Option Str))
    (h : ∀ a ∈ as, validAttrName a.1 = true ∧ '\n' ∉ a.1) (kv : Str × Option Str)
    (hk : kv ∈ (allAttrs C (as.flatMap (fun a => serializeAttr U o tag a.1 a.2) ++ '>' :: rest)).attrs) : ∃ a ∈ as, ReadAs C U a kv := by
  rcases allAttrsF_written C U o ho tag rest as _ [] _ rfl h kv hk with h | h
  · exact absurd h (by simp)
  · exact h

end JH.Eng
