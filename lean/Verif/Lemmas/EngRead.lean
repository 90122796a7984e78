import Verif.Spec.RoundTrip
import Verif.Model.EngMain
import Verif.Props.StartTag
import Verif.Props.Stream

/-! How the engine reads the tags that the serializer writes (C81): names, attributes and end tags. -/
namespace JH.Eng
open JH.Spec

/-! ### Names -/

theorem not_upper {c : Char} (h : ¬ ('A' ≤ c ∧ c ≤ 'Z')) : isUpperC c = false := by
  unfold isUpperC
  rw [Bool.and_eq_false_iff]
  by_cases h1 : 'A' ≤ c
  · right
    have : ¬ c ≤ 'Z' := fun h2 => h ⟨h1, h2⟩
    simp only [decide_eq_false_iff_not]
    exact fun h2 => this (by simpa [Char.le_def, UInt32.le_iff_toNat_le] using h2)
  · left
    simp only [decide_eq_false_iff_not]
    exact fun h2 => h1 (by simpa [Char.le_def, UInt32.le_iff_toNat_le] using h2)

theorem lowerA_plain {s : Str} (h : ∀ c ∈ s, nameChar c) : lowerA s = s := by
  unfold lowerA
  exact (List.map_congr_left fun c hc => lowerC_eq_self (not_upper (h c hc).2.1)).trans (List.map_id' s)

theorem lower_plain (U : Uni) {s : Str} (h : ∀ c ∈ s, nameChar c) : U.lower s = s := by
  rw [U.lower_ascii s (List.all_eq_true.2 fun c hc => (h c hc).1), lowerA_plain h]

theorem fold_plain (C : Cfg) {s : Str} (h : ∀ c ∈ s, nameChar c) : foldName C s = s := by
  unfold foldName
  rw [lowerA_plain h, lower_plain C.E.U h]
  exact ite_self s

theorem nulFix_of {s : Str} (h : '\x00' ∉ s) : nulFix s = s := by
  unfold nulFix
  refine (List.map_congr_left fun c hc => if_neg ?_).trans (List.map_id' s)
  rintro rfl
  exact h hc

theorem nulFix_plain {s : Str} (h : ∀ c ∈ s, nameChar c) : nulFix s = s :=
  nulFix_of fun hc => (h _ hc).2.2.2.2.2.2.2.1 rfl

theorem newlines_of {s : Str} (h : '\r' ∉ s) : newlines s = s := by
  induction s with
  | nil => rfl
  | cons c s ih =>
    have hc : c ≠ '\r' := fun e => h (by rw [e]; simp)
    rw [newlines, ih fun e => h (List.mem_cons_of_mem _ e)]
    · rintro rfl; exact absurd rfl hc
    · intro r e; exact absurd e hc
    · intro c' r e; exact absurd e hc

theorem tagStop_plain {c : Char} (h : nameChar c) : isTagStop c = false := by
  obtain ⟨_, _, h1, h2, h3, h4, h5, _, h6, h7⟩ := h
  simp [isTagStop, isTagNameStop, *]

theorem space_plain {c : Char} (h : nameChar c) : isHtmlSpace c = false := by
  obtain ⟨_, _, h1, h2, h3, h4, h5, _, h6, h7⟩ := h
  simp [isHtmlSpace, *]

theorem attrStop_plain {c : Char} (h : nameChar c) (he : c ≠ '=') : isAttrStop c = false := by
  obtain ⟨_, _, h1, h2, h3, h4, h5, _, h6, h7⟩ := h
  simp [isAttrStop, isAttrNameStop, isTagNameStop, *]

/-- The name of a tag ends where the serializer goes on. -/
theorem splitName_plain {name rest : Str} (h : PlainTag name) (hr : ∀ c, rest.head? = some c → isTagStop c = true) :
    splitName (name ++ rest) = (name, rest) := by
  obtain ⟨⟨c, r, rfl, _⟩, hn⟩ := h
  have := takeWhile_append_stop (p := fun x => !isTagStop x) (a := r) (b := rest)
    (fun x hx => by simp [tagStop_plain (hn x (by simp [hx]))]) (fun x hx => by simp [hr x hx])
  rw [List.cons_append, splitName, this.1, this.2]

/-! ### Attributes -/

/-- What is written for one attribute. -/
def attrText (a : Str × Option Str) : Str :=
  ' ' :: a.1 ++ (if (a.2.getD []).isEmpty then [] else
    '=' :: chooseAttrQuote none (a.2.getD []) :: escapeAttr (chooseAttrQuote none (a.2.getD [])) (a.2.getD []) ++ [chooseAttrQuote none (a.2.getD [])])

theorem serializeAttr_good (U : Uni) (tag : Str) (ht : ∀ c ∈ tag, nameChar c) {a : Str × Option Str} (h : PlainAttr a.1) {v : Str} (hv : a.2 = some v)
    (hb : isBooleanAttr tag a.1 = true → lowerA v ≠ a.1) : serializeAttr U {} tag a.1 a.2 = attrText a := by
  have hm : minimized U {} tag a.1 a.2 = v.isEmpty := by
    unfold minimized
    rw [hv, lower_plain U ht, lower_plain U fun c hc => (h.2 c hc).1]
    simp only [Bool.true_and]
    cases he : v.isEmpty
    · rw [Bool.false_or]
      by_cases h1 : isBooleanAttr tag a.1 = true
      · by_cases h2 : v.all isAscii = true
        · rw [h1, h2, U.lower_ascii v h2]; simp [hb h1]
        · simp only [Bool.not_eq_true] at h2; rw [h2]; simp
      · simp only [Bool.not_eq_true] at h1; rw [h1]; simp
    · rfl
  unfold serializeAttr attrText
  rw [hm, hv, Option.getD_some]
  cases he : v.isEmpty with
  | true => simp
  | false =>
    have : v ≠ [] := by rintro rfl; simp at he
    simp [this]

/-- What follows an attribute. -/
def Follows (Y : Str) : Prop := ∃ y c, Y = '>' :: y ∨ Y = ' ' :: c :: y ∧ isHtmlSpace c = false ∧ c ≠ '='

theorem Follows.head {Y : Str} (h : Follows Y) : Y.head? = some '>' ∨ Y.head? = some ' ' := by
  obtain ⟨y, c, rfl | ⟨rfl, _⟩⟩ := h <;> simp

theorem Follows.strip {Y : Str} (h : Follows Y) : (lstripP isHtmlSpace Y).head? ≠ some '=' := by
  obtain ⟨y, c, rfl | ⟨rfl, h1, h2⟩⟩ := h
  · simp [lstripP, isHtmlSpace]
  · simp [lstripP, List.dropWhile, h1, h2, show isHtmlSpace ' ' = true from rfl]

theorem rawValue_none {s : Str} (h : s.head? ≠ some '=') : rawValue s = some ([], s) := by
  unfold rawValue
  split
  · simp at h
  · rfl

theorem quote_cases (v : Str) : chooseAttrQuote none v = '"' ∨ chooseAttrQuote none v = '\'' := C02_quote_choice none v

/-- The value that is read, before it is decoded. -/
def attrRaw (a : Str × Option Str) : Str :=
  if (a.2.getD []).isEmpty then [] else escapeAttr (chooseAttrQuote none (a.2.getD [])) (a.2.getD [])

theorem strip_idem (s : Str) : lstripP isHtmlSpace (lstripP isHtmlSpace s) = lstripP isHtmlSpace s := by
  unfold lstripP
  induction s with
  | nil => rfl
  | cons c s ih =>
    rw [List.dropWhile_cons]
    split
    · exact ih
    · rename_i h; rw [List.dropWhile_cons, if_neg h]

/-- What comes behind the name of the attribute. -/
theorem attr_value (a : Str × Option Str) {Y : Str} (hY : Follows Y) : ∃ rest, lstripP isHtmlSpace rest = lstripP isHtmlSpace Y ∧
    rawValue (lstripP isHtmlSpace ((if (a.2.getD []).isEmpty then [] else
    '=' :: chooseAttrQuote none (a.2.getD []) :: escapeAttr (chooseAttrQuote none (a.2.getD [])) (a.2.getD []) ++ [chooseAttrQuote none (a.2.getD [])]) ++ Y)) =
    some (attrRaw a, rest) := by
  unfold attrRaw
  cases he : (a.2.getD []).isEmpty with
  | true => exact ⟨_, strip_idem Y, rawValue_none hY.strip⟩
  | false =>
    refine ⟨Y, rfl, ?_⟩
    have hq := quote_cases (a.2.getD [])
    have hn := (C02_attr_contained _ hq (a.2.getD [])).1
    generalize chooseAttrQuote none (a.2.getD []) = qu at hq hn ⊢
    simp only [Bool.false_eq_true, if_false]
    have e1 : lstripP isHtmlSpace (('=' :: qu :: escapeAttr qu (a.2.getD []) ++ [qu]) ++ Y) = '=' :: qu :: (escapeAttr qu (a.2.getD []) ++ qu :: Y) := by
      simp [lstripP, List.dropWhile, isHtmlSpace]
    rw [e1, rawValue]
    have e2 : lstripP isHtmlSpace (qu :: (escapeAttr qu (a.2.getD []) ++ qu :: Y)) = qu :: (escapeAttr qu (a.2.getD []) ++ qu :: Y) := by
      rcases hq with rfl | rfl <;> simp [lstripP, List.dropWhile, isHtmlSpace]
    rw [e2]
    dsimp only
    rw [if_pos (by rcases hq with rfl | rfl <;> simp), splitAt1_append hn]

theorem escapeAttr_no {q : Char} (hq : q = '"' ∨ q = '\'') {v : Str} (h : '\r' ∉ v) : '\r' ∉ escapeAttr q v := by
  rw [escapeAttr_eq hq]
  simp only [List.mem_flatMap, not_exists, not_and]
  intro c hc
  unfold escA1 esc1
  repeat' split
  all_goals first
    | (rcases hq with rfl | rfl <;> decide)
    | decide
    | (simp only [List.mem_singleton]; rintro rfl; exact h hc)

theorem decode_raw (C : Cfg) (a : Str × Option Str) {v : Str} (hv : a.2 = some v) : decodeVal C (attrRaw a) = some v := by
  unfold attrRaw decodeVal
  rw [hv, Option.getD_some]
  cases he : v.isEmpty with
  | true => rw [List.isEmpty_iff.1 he]; rfl
  | false =>
    simp only [Bool.false_eq_true, if_false]
    have h := C02_attr_roundtrip C.E.U C.T (chooseAttrQuote none v) (quote_cases v) v
    split
    · exact h
    · rename_i hc
      have hc' : '&' ∉ escapeAttr (chooseAttrQuote none v) v := by simpa using hc
      rw [← h, C14_no_amp_unchanged C.E.U C.T true _ hc']

theorem raw_newlines (a : Str × Option Str) {v : Str} (hv : a.2 = some v) (h : PlainText v) : newlines (attrRaw a) = attrRaw a := by
  unfold attrRaw
  rw [hv, Option.getD_some]
  cases he : v.isEmpty with
  | true => rfl
  | false => exact newlines_of (escapeAttr_no (quote_cases v) h.1)

/-- The general attribute scanner reads one attribute back. -/
theorem allAttrsF_attr (C : Cfg) (n : Nat) (acc : Attrs) (a : Str × Option Str) {Y : Str} (hk : PlainAttr a.1) {v : Str} (hv : a.2 = some v)
    (hp : PlainText v) (hacc : ∀ p ∈ acc, p.1 ≠ a.1) (hY : Follows Y) :
    ∃ rest, lstripP isHtmlSpace rest = lstripP isHtmlSpace Y ∧ allAttrsF C (n + 1) acc (attrText a ++ Y) = allAttrsF C n (acc ++ [a]) rest := by
  obtain ⟨rest, h1, h2⟩ := attr_value a hY
  refine ⟨rest, h1, ?_⟩
  obtain ⟨c, r, hkey⟩ : ∃ c r, a.1 = c :: r := by
    cases h : a.1 with
    | nil => exact absurd h hk.1
    | cons c r => exact ⟨c, r, rfl⟩
  unfold attrText
  generalize hZ : (if (a.2.getD []).isEmpty = true then [] else
    '=' :: chooseAttrQuote none (a.2.getD []) :: escapeAttr (chooseAttrQuote none (a.2.getD [])) (a.2.getD []) ++ [chooseAttrQuote none (a.2.getD [])]) = Z
    at h2 ⊢
  have hzstop : ∀ x, (Z ++ Y).head? = some x → isAttrStop x = true := by
    intro x hx
    rw [← hZ] at hx
    split at hx
    · rcases hY.head with h | h <;> rw [List.nil_append] at hx <;> rw [h] at hx <;> injection hx with hx <;> subst hx <;> rfl
    · injection hx with hx; subst hx; rfl
  have hch := hk.2
  rw [hkey] at hch
  have hc := hch c (by simp)
  have e0 : lstripP isHtmlSpace ((' ' :: a.1 ++ Z) ++ Y) = c :: (r ++ (Z ++ Y)) := by
    rw [hkey]
    simp [lstripP, List.dropWhile, space_plain hc.1, show isHtmlSpace ' ' = true from rfl]
  have htw := takeWhile_append_stop (p := fun x => !isAttrStop x) (a := r) (b := Z ++ Y)
    (fun x hx => by simp [attrStop_plain (hch x (by simp [hx])).1 (hch x (by simp [hx])).2]) (fun x hx => by simp [hzstop x hx])
  rw [allAttrsF, e0]
  dsimp only
  rw [htw.1, htw.2, h2, if_neg hc.1.2.2.2.2.2.2.2.2.2]
  rw [if_neg (by simp [hc.1.2.2.2.2.2.2.2.2.1]), if_neg hc.1.2.2.2.2.2.2.2.2.1]
  have hkn : ∀ x ∈ c :: r, nameChar x := fun x hx => (hch x hx).1
  rw [fold_plain C hkn, nulFix_plain hkn]
  dsimp only
  rw [raw_newlines a hv hp, decode_raw C a hv]
  dsimp only
  rw [nulFix_of hp.2, if_neg, ← hkey, ← hv]
  simp only [List.any_eq_true, decide_eq_true_eq, not_exists, not_and]
  rw [← hkey]
  exact hacc

theorem allAttrsF_strip (C : Cfg) (n : Nat) (acc : Attrs) {s t : Str} (h : lstripP isHtmlSpace s = lstripP isHtmlSpace t) :
    allAttrsF C (n + 1) acc s = allAttrsF C (n + 1) acc t := by
  unfold allAttrsF
  rw [h]

theorem follows_rest (as : List (Str × Option Str)) (h : ∀ a ∈ as, PlainAttr a.1) (rest : Str) : Follows (as.flatMap attrText ++ '>' :: rest) := by
  cases as with
  | nil => exact ⟨rest, 'x', .inl rfl⟩
  | cons a as =>
    obtain ⟨hne, hch⟩ := h a (by simp)
    cases hk : a.1 with
    | nil => exact absurd hk hne
    | cons c r =>
      rw [hk] at hch
      refine ⟨?_, c, .inr ⟨?_, space_plain (hch c (by simp)).1, (hch c (by simp)).2⟩⟩
      rotate_left
      · rw [List.flatMap_cons, attrText, hk]
        simp only [List.cons_append, List.append_assoc]
        rfl

theorem allAttrsF_all (C : Cfg) (as : List (Str × Option Str)) (rest : Str) : ∀ (n : Nat) (acc : Attrs) (s : Str), as.length < n →
    lstripP isHtmlSpace s = lstripP isHtmlSpace (as.flatMap attrText ++ '>' :: rest) → ((acc ++ as).map (·.1)).Nodup →
    (∀ a ∈ as, PlainAttr a.1 ∧ ∃ v, a.2 = some v ∧ PlainText v) → allAttrsF C n acc s = ⟨acc ++ as, false, rest, true, false⟩ := by
  induction as with
  | nil =>
    intro n acc s hn hs _ _
    obtain ⟨n, rfl⟩ : ∃ m, n = m + 1 := ⟨n - 1, by simp at hn; omega⟩
    rw [allAttrsF_strip C n acc hs]
    simp [allAttrsF, lstripP, isHtmlSpace]
  | cons a as ih =>
    intro n acc s hn hs hd hg
    obtain ⟨n, rfl⟩ : ∃ m, n = m + 1 := ⟨n - 1, by simp at hn; omega⟩
    obtain ⟨hk, v, hv, hp⟩ := hg a (by simp)
    rw [allAttrsF_strip C n acc hs, List.flatMap_cons, List.append_assoc]
    obtain ⟨r, h1, h2⟩ := allAttrsF_attr C n acc a hk hv hp (by
      intro p hp' e
      rw [List.map_append, List.map_cons, List.nodup_append] at hd
      exact hd.2.2 p.1 (List.mem_map_of_mem hp') a.1 (by simp) e) (follows_rest as (fun a ha => (hg a (by simp [ha])).1) rest)
    rw [h2, ih n (acc ++ [a]) r (by simp at hn; omega) h1 (by simpa using hd) fun a ha => hg a (by simp [ha])]
    simp

theorem attrText_pos (a : Str × Option Str) : 1 ≤ (attrText a).length := by simp [attrText]

theorem flatMap_attr_len (as : List (Str × Option Str)) : as.length ≤ (as.flatMap attrText).length := by
  induction as with
  | nil => simp
  | cons a as ih =>
    have := attrText_pos a
    simp only [List.flatMap_cons, List.length_append, List.length_cons]
    omega

/-- The general attribute scanner reads the attributes of a serialized tag back. -/
theorem allAttrs_read (C : Cfg) {tag : Str} {as : List (Str × Option Str)} (h : GoodAttrs tag as) (rest : Str) :
    allAttrs C (as.flatMap attrText ++ '>' :: rest) = ⟨as, false, rest, true, false⟩ := by
  unfold allAttrs
  have := flatMap_attr_len as
  rw [allAttrsF_all C as rest _ [] _ (by rw [List.length_append]; omega) rfl (by simpa using h.1) fun a ha => by
    obtain ⟨h1, v, h2, h3, _⟩ := h.2 a ha
    exact ⟨h1, v, h2, h3⟩]
  simp

/-- What the serializer writes for the start tag. -/
theorem startTag_text (U : Uni) {tag : Str} (ht : PlainTag tag) {as : List (Str × Option Str)} (h : GoodAttrs tag as) {out : Str}
    (ho : serializeStartTag U {} tag as = some out) : out = '<' :: (tag ++ (as.flatMap attrText ++ c%">")) := by
  unfold serializeStartTag at ho
  split at ho
  · exact absurd ho (by simp)
  split at ho
  · exact absurd ho (by simp)
  injection ho with ho
  rw [← ho]
  have : as.flatMap (fun a => serializeAttr U {} tag a.1 a.2) = as.flatMap attrText := by
    clear ho
    rw [List.flatMap_def, List.flatMap_def]
    congr 1
    refine List.map_congr_left fun a ha => ?_
    obtain ⟨h1, v, h2, h3, h4⟩ := h.2 a ha
    exact serializeAttr_good U tag ht.2 h1 h2 h4
  rw [this]
  simp

end JH.Eng
