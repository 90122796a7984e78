import Verif.Props.Url
import Verif.Spec.Form
/-! C108: what proxying does to the URLs a rule keeps. -/
namespace JH
open Spec

/-! ### Reading a query -/

theorem hexOf_eq (c : Char) : hexOf c = hexVal? c := by
  unfold hexOf hexVal?
  simp only [isDigitC, Char.le_def, UInt32.le_iff_toNat_le, Bool.and_eq_true, decide_eq_true_eq]
  have e : ∀ d : Char, d.val.toNat = d.toNat := fun _ => rfl
  simp only [e]
  have h0 : '0'.toNat = 48 := rfl
  have h9 : '9'.toNat = 57 := rfl
  have ha : 'a'.toNat = 97 := rfl
  have hf : 'f'.toNat = 102 := rfl
  have hA : 'A'.toNat = 65 := rfl
  have hF : 'F'.toNat = 70 := rfl
  simp only [h0, h9, ha, hf, hA, hF]
  split
  · rfl
  · split
    · rw [if_neg (by omega)]; congr 1; omega
    · split <;> · try rfl
                  try (congr 1; omega)

theorem hexVal_plus (c : Char) : hexVal? (if c = '+' then ' ' else c) = hexVal? c := by
  split
  · rename_i h; subst h; decide
  · rfl

theorem unquote_form (s : Str) : unquoteBytes (s.map fun c => if c = '+' then ' ' else c) = formBytes s := by
  fun_induction formBytes s with
  | case1 => rfl
  | case2 a b r x y hx hy ih =>
    simp only [List.map_cons, if_neg (show ('%' : Char) ≠ '+' by decide), unquoteBytes, hexOf_eq, hexVal_plus, hx, hy]
    rw [Nat.mul_comm x, ih]
  | case3 a b r h ih =>
    simp only [List.map_cons, if_neg (show ('%' : Char) ≠ '+' by decide)]
    rw [unquoteBytes]
    simp only [hexOf_eq, hexVal_plus]
    rw [← List.map_cons (f := fun c => if c = '+' then ' ' else c), ← List.map_cons (f := fun c => if c = '+' then ' ' else c), ih]
    cases hx : hexVal? a with
    | none => rfl
    | some x =>
      cases hy : hexVal? b with
      | none => rfl
      | some y => exact absurd hy (fun hy => h x y hx hy)
  | case4 c r h ih =>
    rw [List.map_cons]
    by_cases hc : c = '+'
    · subst hc
      rw [if_pos rfl, if_pos rfl, unquoteBytes, ih]
      · rfl
      · intro a b r' h1 h2; revert h1; decide
    · rw [if_neg hc, if_neg hc, unquoteBytes, ih]
      intro a b r' h1 h2
      subst h1
      cases r with
      | nil => simp at h2
      | cons a' r =>
        cases r with
        | nil => simp at h2
        | cons b' r => exact h a' b' r rfl rfl

theorem parseQsl_form (dec : List Nat → Str) (u : Str) :
    parseQsl dec (((u.takeWhile (· ≠ '#')).dropWhile (· ≠ '?')).drop 1) = formPairs dec u := by
  unfold parseQsl formPairs
  dsimp only
  induction splitC '&' (((u.takeWhile (· ≠ '#')).dropWhile (· ≠ '?')).drop 1) with
  | nil => rfl
  | cons p ps ih =>
    rw [List.filterMap_cons, List.filter_cons]
    by_cases hp : p.isEmpty = true
    · rw [if_pos hp, if_neg (by simp [hp])]; exact ih
    · rw [if_neg hp, if_pos (by simpa using hp), List.map_cons, ← ih, unquote_form, unquote_form]

/-- Reading a text without `+` as bytes, when it is well-formed ASCII. -/
theorem formBytes_percent (s : Str) (bs : List Nat) (h : percentDecode s = some bs) (hp : '+' ∉ s) : formBytes s = bs := by
  fun_induction percentDecode s generalizing bs with
  | case1 => simpa [formBytes] using h
  | case2 a b r x y bs' hr hy hx ih =>
    simp only [Option.some.injEq] at h
    subst h
    simp only [formBytes, hx, hy]
    rw [ih bs' hr (fun hm => hp (by simp [hm]))]
  | case3 => simp at h
  | case4 c r hne hc => simp at h
  | case5 c r hne hc ih =>
    rw [Option.map_eq_some_iff] at h
    obtain ⟨bs', h1, h2⟩ := h
    rw [formBytes, ih bs' h1 (fun hm => hp (by simp [hm])), if_neg (fun e => hp (by simp [e]))]
    · rw [← h2]
      have : c.toNat < 128 := by omega
      simp [utf8, this]
    · intro a b r' h1 h2; exact hne a b r' h1 h2

theorem quote_no_plus (v : Str) : '+' ∉ urlQuote (fun _ => false) v := by
  intro h
  rcases quote_none_char v _ h with h | h | h | h
  · revert h; decide
  · revert h; decide
  · revert h; decide
  · revert h; decide

theorem form_quote (dec : List Nat → Str) (hd : Decoder dec) (v : Str) : dec (formBytes (urlQuote (fun _ => false) v)) = v := by
  have h := urlQuote_roundtrip (fun _ => false) rfl v
  rw [Option.bind_eq_some_iff] at h
  obtain ⟨bs, h1, h2⟩ := h
  rw [formBytes_percent _ bs h1 (quote_no_plus v)]
  exact hd _ _ h2

/-- The parameters of a proxied URL: those of the proxy URL, then the configured one. -/
theorem formPairs_proxy (dec : List Nat → Str) (hd : Decoder dec) (p : UrlProxy) (v : Str) (hh : '#' ∉ p.url) :
    formPairs dec (proxyUrl p v) = formPairs dec p.url ++ [(p.param, v)] := by
  have hpk : ∀ x ∈ urlQuote (fun _ => false) p.param ++ c%"=" ++ urlQuote (fun _ => false) v, x ≠ '&' ∧ x ≠ '#' ∧ x ≠ '?' := by
    intro x hx
    rw [List.mem_append, List.mem_append] at hx
    rcases hx with (hx | hx) | hx
    · have := quote_none_not _ x hx
      exact ⟨this.1, this.2.2.1, this.2.2.2.1⟩
    · simp at hx; rw [hx]; decide
    · have := quote_none_not _ x hx
      exact ⟨this.1, this.2.2.1, this.2.2.2.1⟩
  have hpair : partitionC '=' (urlQuote (fun _ => false) p.param ++ c%"=" ++ urlQuote (fun _ => false) v) =
      (urlQuote (fun _ => false) p.param, true, urlQuote (fun _ => false) v) := by
    rw [List.append_assoc]
    exact partitionC_found '=' _ _ (fun hm => (quote_none_not _ _ hm).2.1 rfl)
  have hGne : urlQuote (fun _ => false) p.param ++ c%"=" ++ urlQuote (fun _ => false) v ≠ [] := by simp
  have hout : proxyUrl p v = p.url ++ (if p.url.contains '?' then c%"&" else c%"?") ++
      (urlQuote (fun _ => false) p.param ++ c%"=" ++ urlQuote (fun _ => false) v) := by
    unfold proxyUrl; simp only [List.append_assoc]
  rw [hout]
  generalize urlQuote (fun _ => false) p.param ++ c%"=" ++ urlQuote (fun _ => false) v = G at hpk hpair hGne
  have hsG : splitC '&' G = [G] := splitC_none '&' G (fun hm => (hpk _ hm).1 rfl)
  have hnf : ∀ w : Str, '#' ∉ w → w.takeWhile (fun x => decide (x ≠ '#')) = w := by
    intro w hw
    apply takeWhile_all
    intro x hx
    simp only [decide_eq_true_eq]
    rintro rfl; exact hw hx
  have hlast : ((splitC '&' G).filter fun piece => !piece.isEmpty).map (fun piece =>
      (dec (formBytes (partitionC '=' piece).1), dec (formBytes (partitionC '=' piece).2.2))) = [(p.param, v)] := by
    rw [hsG]
    have : (!G.isEmpty) = true := by cases G with | nil => exact absurd rfl hGne | cons _ _ => rfl
    simp [this, hpair, form_quote dec hd]
  unfold formPairs
  dsimp only
  rw [hnf p.url hh, hnf _ (by
    rw [List.mem_append, List.mem_append]
    rintro ((h | h) | h)
    · exact hh h
    · split at h <;> · revert h; decide
    · exact (hpk _ h).2.1 rfl)]
  by_cases hq : '?' ∈ p.url
  · rw [if_pos (by simpa using hq)]
    obtain ⟨a, b, hab, ha⟩ := mem_split_first '?' p.url hq
    have hd1 : ∀ r : Str, (a ++ '?' :: r).dropWhile (fun x => decide (x ≠ '?')) = '?' :: r := fun r =>
      dropWhile_append_stop _ a '?' _ (by intro x hx; simp only [decide_eq_true_eq]; rintro rfl; exact ha hx) (by simp)
    rw [hab, show a ++ '?' :: b ++ c%"&" ++ G = a ++ '?' :: (b ++ '&' :: G) by simp, hd1, hd1,
      List.drop_one, List.tail_cons, List.drop_one, List.tail_cons, splitC_append_sep, List.filter_append, List.map_append, hlast]
  · rw [if_neg (by simpa using hq), show p.url ++ c%"?" ++ G = p.url ++ '?' :: G by simp,
      dropWhile_append_stop _ p.url '?' _ (by intro x hx; simp only [decide_eq_true_eq]; rintro rfl; exact hq hx) (by simp),
      List.drop_one, List.tail_cons, hlast]
    have : ∀ w : Str, '?' ∉ w → w.dropWhile (fun x => decide (x ≠ '?')) = [] := by
      intro w
      induction w with
      | nil => intro _; rfl
      | cons x w ih =>
        intro hw
        rw [List.dropWhile_cons, if_pos (by simp only [decide_eq_true_eq]; rintro rfl; exact hw (by simp))]
        exact ih fun hm => hw (by simp [hm])
    replace this := this p.url hq
    rw [this]
    rfl

theorem validProxy_spec (E : UrlEnv) (dec : List Nat → Str) (url param : Str) (p : UrlProxy) (hp : validProxy E dec url param = some p) :
    p.param = param ∧ (p.url.dropWhile (· ≠ '#')).drop 1 = [] ∧ ∀ nv ∈ formPairs dec p.url, nv.1 ≠ p.param := by
  unfold validProxy at hp
  dsimp only at hp
  rw [Option.ite_none_left_eq_some] at hp
  replace hp := hp.2
  rw [Option.ite_none_left_eq_some] at hp
  replace hp := hp.2
  rw [Option.ite_none_left_eq_some] at hp
  replace hp := hp.2
  rw [Option.ite_none_left_eq_some] at hp
  obtain ⟨hf, hp⟩ := hp
  rw [Option.ite_none_left_eq_some] at hp
  obtain ⟨hq, hp⟩ := hp
  rw [Option.ite_none_left_eq_some] at hp
  obtain ⟨hs, hp⟩ := hp
  simp only [Option.some.injEq] at hp
  rw [← hp]
  refine ⟨rfl, by simpa using hf, ?_⟩
  intro nv hnv e
  dsimp only at hnv e
  rw [parseQsl_form] at hq
  exact hq (List.any_eq_true.mpr ⟨nv, hnv, by simpa using e⟩)

/-! ### What is kept -/

theorem schemePrefix_of (a r : Str) (hne : a ≠ []) (hc : ∀ c ∈ a, c ≠ ':' ∧ c ≠ '/' ∧ c ≠ '?' ∧ c ≠ '#') :
    schemeLikePrefix (a ++ ':' :: r) = some a := by
  unfold schemeLikePrefix
  rw [find_char ':' a r (fun hm => (hc _ hm).1 rfl)]
  dsimp only
  rw [if_neg (by simpa using hne)]
  have stop : ∀ (c : Char) (e : Nat), (∀ x ∈ a, x ≠ c) → c ≠ ':' → a.length < e →
      a.length < (match find? [c] (a ++ ':' :: r) with | some j => if j < e then j else e | none => e) := by
    intro c e hca hc0 he
    cases hf : find? [c] (a ++ ':' :: r) with
    | none => exact he
    | some j =>
      have hj : a.length < j := by
        obtain ⟨-, h2, -⟩ := find?_some hf
        obtain ⟨t, ht⟩ := startsWith_iff.mp h2
        have hg : (a ++ ':' :: r)[j]? = some c := by
          have : ((a ++ ':' :: r).drop j)[0]? = some c := by rw [ht]; rfl
          simpa using this
        rcases Nat.lt_trichotomy j a.length with hlt | heq | hgt
        · rw [List.getElem?_append_left hlt] at hg
          exact absurd rfl (hca c (List.mem_of_getElem? hg))
        · rw [heq, List.getElem?_append_right (Nat.le_refl _)] at hg
          simp at hg
          exact absurd hg.symm hc0
        · exact hgt
      dsimp only
      split <;> omega
  rw [if_neg]
  · rw [List.take_left]
  · rw [Nat.not_le]
    refine stop '#' _ (fun x hx => (hc x hx).2.2.2) (by decide) ?_
    refine stop '?' _ (fun x hx => (hc x hx).2.2.1) (by decide) ?_
    refine stop '/' _ (fun x hx => (hc x hx).2.1) (by decide) ?_
    simp

theorem schemePrefix_inv (v a : Str) (h : schemeLikePrefix v = some a) :
    ∃ r, v = a ++ ':' :: r ∧ a ≠ [] ∧ ∀ c ∈ a, c ≠ ':' ∧ c ≠ '/' ∧ c ≠ '?' ∧ c ≠ '#' := by
  unfold schemeLikePrefix at h
  cases hf : find? c%":" v with
  | none => rw [hf] at h; simp at h
  | some k =>
    rw [hf] at h
    dsimp only at h
    rw [Option.ite_none_left_eq_some] at h
    obtain ⟨hk0, h⟩ := h
    rw [Option.ite_none_left_eq_some, Option.some.injEq] at h
    obtain ⟨hk, h⟩ := h
    have hcol : ':' ∈ v := by
      obtain ⟨-, h2, -⟩ := find?_some hf
      obtain ⟨t, ht⟩ := startsWith_iff.mp h2
      exact List.mem_of_mem_drop (i := k) (by rw [ht]; simp)
    obtain ⟨b, r, hv, hb⟩ := mem_split_first ':' v hcol
    have hkb : k = b.length := by
      rw [hv, find_char ':' b r hb] at hf
      simpa using hf.symm
    have hab : a = b := by rw [← h, hv, hkb, List.take_left]
    subst hab
    refine ⟨r, hv, ?_, ?_⟩
    · rintro rfl; exact hk0 (by simpa using hkb)
    · intro c hc
      refine ⟨fun e => hb (e ▸ hc), ?_⟩
      have fnd : ∀ d : Char, d ∈ a → ∃ j, find? [d] v = some j ∧ j < k := by
        intro d hd
        obtain ⟨x, y, hxy, hx⟩ := mem_split_first d a hd
        refine ⟨x.length, ?_, ?_⟩
        · rw [hv, hxy, List.append_assoc, List.cons_append]; exact find_char d x _ hx
        · rw [hkb, hxy]; simp
      have le1 : ∀ (d : Char) (e : Nat), (match find? [d] v with | some j => if j < e then j else e | none => e) ≤ e := by
        intro d e
        cases find? [d] v with
        | none => exact Nat.le_refl _
        | some j => dsimp only; split <;> omega
      have le2 : ∀ (d : Char) (e : Nat), d ∈ a → (match find? [d] v with | some j => if j < e then j else e | none => e) < k ∨
          (match find? [d] v with | some j => if j < e then j else e | none => e) ≤ k := by
        intro d e hd
        obtain ⟨j, h1, h2⟩ := fnd d hd
        rw [h1]; dsimp only; right; split <;> omega
      have le3 : ∀ (d : Char) (e : Nat), d ∈ a → (match find? [d] v with | some j => if j < e then j else e | none => e) < k := by
        intro d e hd
        obtain ⟨j, h1, h2⟩ := fnd d hd
        rw [h1]; dsimp only; split <;> omega
      refine ⟨?_, ?_, ?_⟩
      · rintro rfl
        exact hk (Nat.le_of_lt (Nat.lt_of_le_of_lt (Nat.le_trans (le1 '#' _) (le1 '?' _)) (le3 '/' _ hc)))
      · rintro rfl
        exact hk (Nat.le_of_lt (Nat.lt_of_le_of_lt (le1 '#' _) (le3 '?' _ hc)))
      · rintro rfl
        exact hk (Nat.le_of_lt (le3 '#' _ hc))

theorem hasInvalid_odd (v : Str) : hasInvalidSchemePrefix v = true ↔ OddPrefix v := by
  unfold hasInvalidSchemePrefix
  constructor
  · intro h
    cases hp : schemeLikePrefix v with
    | none => rw [hp] at h; simp at h
    | some a =>
      rw [hp] at h
      dsimp only at h
      obtain ⟨r, hv, hne, hc⟩ := schemePrefix_inv v a hp
      refine ⟨a, r, hv, hne, hc, ?_⟩
      cases hs : splitScheme v with
      | none => rfl
      | some x =>
        obtain ⟨b, r'⟩ := x
        obtain ⟨e, hb⟩ := (splitScheme_iff v b r').mp hs
        have h1 : partitionC ':' v = (a, true, r) := by rw [hv]; exact partitionC_found ':' a r (fun hm => (hc _ hm).1 rfl)
        have h2 : partitionC ':' v = (b, true, r') := by rw [e]; exact partitionC_found ':' b r' (fun hm => (validScheme_char b hb _ hm).1 rfl)
        rw [h1] at h2
        rw [(Prod.mk.inj h2).1, hb] at h
        simp at h
  · rintro ⟨a, b, hv, hne, hc, hs⟩
    have hp : schemeLikePrefix v = some a := by rw [hv]; exact schemePrefix_of a b hne hc
    rw [hp]
    dsimp only
    cases hva : isValidScheme a with
    | false => rfl
    | true => rw [(splitScheme_iff v a b).mpr ⟨hv, hva⟩] at hs; simp at hs

theorem noOdd_prefix (v : Str) (h : startsWith c%"#" v = true ∨ startsWith c%"//" v = true) : hasInvalidSchemePrefix v = false := by
  cases hv : hasInvalidSchemePrefix v with
  | false => rfl
  | true =>
    obtain ⟨a, b, e, hne, hc, -⟩ := (hasInvalid_odd v).mp hv
    cases a with
    | nil => exact absurd rfl hne
    | cons x a =>
      have := hc x (by simp)
      rcases h with h | h
      · obtain ⟨t, ht⟩ := startsWith_iff.mp h
        rw [ht] at e
        simp at e
        exact absurd e.1.symm this.2.2.2
      · obtain ⟨t, ht⟩ := startsWith_iff.mp h
        rw [ht] at e
        simp at e
        exact absurd e.1.symm this.2.1

/-- Every value kept without a proxy is kept with it, unless it has an odd prefix. -/
theorem checkStripped_proxied (E : UrlEnv) (rule : UrlRule) (rel : Bool) (p : UrlProxy) (s v : Str)
    (hk : checkStripped E rule .allow rel none s = some v) :
    (hasInvalidSchemePrefix (normUrl s) = false ∧ checkStripped E rule .proxy rel (some p) s = some (proxyUrl p v) ∧
        (v = s ∨ ∃ r0, rule.resolve = some r0 ∧ v = E.U.lower r0 ++ c%":" ++ normUrl s)) ∨
      (hasInvalidSchemePrefix (normUrl s) = true ∧ v = s ∧ checkStripped E rule .proxy rel (some p) s = none) := by
  have fin : ∀ w, finishUrl .allow none w = some v → finishUrl .proxy (some p) w = some (proxyUrl p v) ∧ v = w := by
    intro w h
    unfold finishUrl at h ⊢
    simp only [Option.some.injEq] at h
    simp [h]
  unfold checkStripped at hk ⊢
  dsimp only at hk ⊢
  rw [Option.ite_none_left_eq_some] at hk
  rw [if_neg hk.1]
  replace hk := hk.2
  rw [Option.ite_none_left_eq_some] at hk
  rw [if_neg hk.1]
  replace hk := hk.2
  rw [Option.ite_none_left_eq_some] at hk
  rw [if_neg hk.1]
  replace hk := hk.2
  by_cases h1 : startsWith c%"#" (normUrl s) = true
  · rw [if_pos h1, Option.ite_none_left_eq_some] at hk
    rw [if_pos h1, if_neg hk.1]
    exact .inl ⟨noOdd_prefix _ (.inl h1), (fin _ hk.2).1, .inl (fin _ hk.2).2⟩
  rw [if_neg h1, if_neg (by simp)] at hk
  rw [if_neg h1]
  by_cases h2 : startsWith c%"//" (normUrl s) = true
  · refine .inl ⟨noOdd_prefix _ (.inr h2), ?_⟩
    rw [if_neg (by simp [noOdd_prefix _ (.inr h2)])]
    rw [if_pos h2] at hk ⊢
    cases hr : rule.resolve with
    | none => rw [hr] at hk; simp at hk
    | some r0 =>
      rw [hr] at hk
      dsimp only at hk ⊢
      rw [Option.ite_none_left_eq_some, Option.ite_none_left_eq_some] at hk
      rw [if_neg hk.1, if_neg hk.2.1]
      replace hk := hk.2.2
      rw [Option.ite_none_left_eq_some] at hk
      rw [if_neg hk.1]
      exact ⟨(fin _ hk.2).1, .inr ⟨r0, rfl, (fin _ hk.2).2⟩⟩
  rw [if_neg h2] at hk ⊢
  cases hodd : hasInvalidSchemePrefix (normUrl s) with
  | true =>
    refine .inr ⟨rfl, ?_, by rw [if_pos (by simp)]⟩
    cases hg : getScheme E.U (normUrl s) with
    | none =>
      rw [hg] at hk
      dsimp only at hk
      rw [Option.ite_none_left_eq_some] at hk
      exact (fin _ hk.2).2
    | some sc =>
      exfalso
      unfold getScheme at hg
      unfold hasInvalidSchemePrefix at hodd
      cases hp : schemeLikePrefix (normUrl s) with
      | none => rw [hp] at hg; simp at hg
      | some a =>
        rw [hp] at hg hodd
        dsimp only at hg hodd
        rw [if_neg (by simpa using hodd)] at hg
        simp at hg
  | false =>
    refine .inl ⟨rfl, ?_⟩
    rw [if_neg (by simp)]
    cases hg : getScheme E.U (normUrl s) with
    | none =>
      rw [hg] at hk
      dsimp only at hk ⊢
      rw [Option.ite_none_left_eq_some] at hk
      rw [if_neg hk.1]
      exact ⟨(fin _ hk.2).1, .inl (fin _ hk.2).2⟩
    | some sc =>
      rw [hg] at hk
      dsimp only at hk ⊢
      rw [Option.ite_none_left_eq_some] at hk
      rw [if_neg hk.1]
      replace hk := hk.2
      by_cases h3 : ((decide (sc = c%"http") || decide (sc = c%"https")) && !startsWith (sc ++ c%"://") (normUrl s)) = true
      · rw [if_pos h3] at hk ⊢
        rw [Option.ite_none_left_eq_some, Option.ite_none_left_eq_some] at hk
        rw [if_neg hk.1, if_neg hk.2.1]
        exact ⟨(fin _ hk.2.2).1, .inl (fin _ hk.2.2).2⟩
      · rw [if_neg h3] at hk ⊢
        rw [Option.ite_none_left_eq_some] at hk
        rw [if_neg hk.1]
        exact ⟨(fin _ hk.2).1, .inl (fin _ hk.2).2⟩

/-- In a policy the constructor accepts, a rule with proxy handling has a proxy. -/
theorem newUrlPolicy_proxy (p p' : UrlPolicy) (h : newUrlPolicy p = some p') (kr : (Str × Str) × UrlRule) (hm : kr ∈ p'.rules)
    (he : effHandling p' kr.2 = .proxy) : ∃ pr, effProxy p' kr.2 = some pr := by
  unfold newUrlPolicy at h
  rw [Option.ite_none_left_eq_some, Option.some.injEq] at h
  obtain ⟨h, rfl⟩ := h
  unfold effHandling at he
  unfold effProxy
  cases h1 : kr.2.proxy with
  | some x => exact ⟨x, rfl⟩
  | none =>
    cases h2 : p.proxy with
    | some x => exact ⟨x, rfl⟩
    | none => exact absurd (List.any_eq_true.mpr ⟨kr, hm, by simp [he, h1, h2]⟩) h

/-- The URL without the characters a URL check ignores. -/
def visibleUrl (v : Str) : Str := v.filter fun c => !(c.toNat ≤ 0x20 || c.toNat = 0x7f)

/-- C108: in a `UrlPolicy` the constructor accepts, a rule whose handling is proxy sends every URL it would keep without a proxy to
the proxy of the rule, or of the policy if the rule has none: the result starts with the proxy URL and a server reads in it exactly one
parameter of the configured name, the kept URL. (The URL must not start with something like `1x:`; proxies without `#`, see
C18_empty_fragment_fails.) -/
theorem C108_sent (E : UrlEnv) (dec : List Nat → Str) (hd : Decoder dec) (p p' : UrlPolicy) (hp : newUrlPolicy p = some p')
    (key : Str × Str) (rule : UrlRule) (hm : (key, rule) ∈ p'.rules) (he : rule.handling.getD p'.defaultHandling = .proxy)
    (hv : ∀ pr, (rule.proxy = some pr ∨ p'.proxy = some pr) → '#' ∉ pr.url ∧ ∃ url param, validProxy E dec url param = some pr)
    (tag attr value v : Str)
    (hk : sanitizeUrl E rule tag attr .allow (rule.allowRelative.getD p'.defaultAllowRelative) none p'.filter value = some v)
    (ho : ¬ OddPrefix (visibleUrl v)) :
    ∃ pr out, (rule.proxy = some pr ∨ rule.proxy = none ∧ p'.proxy = some pr) ∧ sanitizeSimple E p' rule tag attr value = some out ∧
      pr.url <+: out ∧ (formPairs dec out).filter (fun nv => nv.1 = pr.param) = [(pr.param, v)] := by
  obtain ⟨pr, hpr⟩ := newUrlPolicy_proxy p p' hp (key, rule) hm he
  have hsrc : rule.proxy = some pr ∨ rule.proxy = none ∧ p'.proxy = some pr := by
    unfold effProxy at hpr
    dsimp only at hpr
    split at hpr
    · rename_i x hx; left; rw [hx, hpr]
    · rename_i hx; exact .inr ⟨hx, hpr⟩
  obtain ⟨hh, url, param, hval⟩ := hv pr (hsrc.imp_right And.right)
  refine ⟨pr, proxyUrl pr v, hsrc, ?_, ?_, ?_⟩
  · unfold sanitizeSimple
    rw [show effHandling p' rule = .proxy from he, show effProxy p' rule = some pr from hpr]
    unfold sanitizeUrl at hk ⊢
    split at hk
    · simp at hk
    · rcases checkStripped_proxied E rule _ pr _ v hk with ⟨-, h, -⟩ | ⟨h, e, -⟩
      · exact h
      · refine absurd ((hasInvalid_odd _).mp ?_) ho
        rw [← e, normUrl_eq] at h
        exact h
  · unfold proxyUrl; simp only [List.append_assoc]; exact List.prefix_append _ _
  · rw [formPairs_proxy dec hd pr v hh, List.filter_append]
    have : (formPairs dec pr.url).filter (fun nv => decide (nv.1 = pr.param)) = [] := by
      rw [List.filter_eq_nil_iff]
      intro nv hnv
      simpa using (validProxy_spec E dec url param pr hval).2.2 nv hnv
    rw [this]
    simp

/-- C108: and nothing else is sent: whatever a rule with proxy handling returns is such a URL for a value it would have kept without
the proxy. -/
theorem C108_only (E : UrlEnv) (dec : List Nat → Str) (hd : Decoder dec) (p : UrlPolicy) (rule : UrlRule)
    (he : rule.handling.getD p.defaultHandling = .proxy)
    (hv : ∀ pr, (rule.proxy = some pr ∨ p.proxy = some pr) → '#' ∉ pr.url ∧ ∃ url param, validProxy E dec url param = some pr)
    (tag attr value out : Str) (hk : sanitizeSimple E p rule tag attr value = some out) :
    ∃ pr v, (rule.proxy = some pr ∨ rule.proxy = none ∧ p.proxy = some pr) ∧
      sanitizeUrl E rule tag attr .allow (rule.allowRelative.getD p.defaultAllowRelative) none p.filter value = some v ∧
      pr.url <+: out ∧ (formPairs dec out).filter (fun nv => nv.1 = pr.param) = [(pr.param, v)] := by
  unfold sanitizeSimple at hk
  rw [show effHandling p rule = .proxy from he] at hk
  unfold sanitizeUrl at hk ⊢
  split at hk
  · simp at hk
  · obtain ⟨pr, v, hpr, h2, rfl⟩ := checkStripped_proxy E rule _ _ none _ out hk
    have hsrc : rule.proxy = some pr ∨ rule.proxy = none ∧ p.proxy = some pr := by
      unfold effProxy at hpr
      split at hpr
      · rename_i x hx; left; rw [hx, hpr]
      · rename_i hx; exact .inr ⟨hx, hpr⟩
    obtain ⟨hh, url, param, hval⟩ := hv pr (hsrc.imp_right And.right)
    refine ⟨pr, v, hsrc, h2, ?_, ?_⟩
    · unfold proxyUrl; simp only [List.append_assoc]; exact List.prefix_append _ _
    · rw [formPairs_proxy dec hd pr v hh, List.filter_append]
      have : (formPairs dec pr.url).filter (fun nv => decide (nv.1 = pr.param)) = [] := by
        rw [List.filter_eq_nil_iff]
        intro nv hnv
        simpa using (validProxy_spec E dec url param pr hval).2.2 nv hnv
      rw [this]
      simp

/-- C108: an URL with an odd prefix is not sent to the proxy, it is dropped (unless the scheme for `//host` URLs is itself odd). -/
theorem C108_odd (E : UrlEnv) (rule : UrlRule) (tag attr : Str) (rel : Bool) (pr : UrlProxy) (filter : Option UrlFilter) (value v : Str)
    (hres : ∀ r, rule.resolve = some r → SchemeName r)
    (hk : sanitizeUrl E rule tag attr .allow rel none filter value = some v) (ho : OddPrefix (visibleUrl v)) :
    sanitizeUrl E rule tag attr .proxy rel (some pr) filter value = none := by
  have hn := (hasInvalid_odd _).mpr ho
  rw [show visibleUrl v = normUrl v from (normUrl_eq v).symm] at hn
  unfold sanitizeUrl at hk ⊢
  split at hk
  · simp at hk
  · rcases checkStripped_proxied E rule rel pr _ v hk with ⟨h, -, e⟩ | ⟨-, -, h⟩
    · exfalso
      rcases e with e | ⟨r0, hr, e⟩
      · rw [e] at hn; rw [hn] at h; simp at h
      · have hv := (schemeName_iff r0).mp (hres r0 hr)
        have hlow : E.U.lower r0 = lowerA r0 := by
          apply E.U.lower_ascii
          rw [List.all_eq_true]
          exact fun x hx => (validScheme_char r0 hv x hx).2.2.2.2.2.2
        rw [hlow] at e
        have hva := lowerA_valid r0 hv
        rw [normUrl_id v (by rw [e]; exact resolved_ws _ _ hva)] at hn
        obtain ⟨-, -, -, -, -, hs⟩ := (hasInvalid_odd v).mp hn
        rw [(splitScheme_iff v (lowerA r0) _).mpr ⟨by rw [e, List.append_assoc]; rfl, hva⟩] at hs
        simp at hs
    · exact h

/-! ### Examples -/

/-- A policy for the examples. -/
def proxyPolicy : UrlPolicy :=
  { rules := [((c%"img", c%"src"), { schemes := [c%"https"], handling := some .proxy })], proxy := some ⟨c%"/p?k=1", c%"url"⟩ }

example : (newUrlPolicy proxyPolicy).isSome = true := by decide
example : (newUrlPolicy { proxyPolicy with proxy := none }).isSome = false := by decide
example : Decoder sampleDec := fun _ _ h => by simp [sampleDec, h]
example : validProxy UrlEnv.sample sampleDec c%"/p?k=1" c%"url" = some ⟨c%"/p?k=1", c%"url"⟩ := by decide
example : validProxy UrlEnv.sample sampleDec c%"/p?k=1&%75rl=x" c%"url" = none := by decide
example : validProxy UrlEnv.sample sampleDec c%"/p?a+b" c%"a b" = none := by decide
example : sanitizeUrl UrlEnv.sample { schemes := [c%"https"], handling := some .proxy } c%"img" c%"src" .allow true none none c%" https://x/?a&url=1 " =
    some c%"https://x/?a&url=1" := by decide
example : sanitizeSimple UrlEnv.sample proxyPolicy { schemes := [c%"https"], handling := some .proxy } c%"img" c%"src" c%" https://x/?a&url=1 " =
    some c%"/p?k=1&url=https%3A%2F%2Fx%2F%3Fa%26url%3D1" := by decide
example : formPairs sampleDec c%"/p?k=1&url=https%3A%2F%2Fx%2F%3Fa%26url%3D1" = [(c%"k", c%"1"), (c%"url", c%"https://x/?a&url=1")] := by
  decide
example : OddPrefix c%"1x:y" := ⟨c%"1x", c%"y", by decide, by decide, by decide, by decide⟩
example : sanitizeUrl UrlEnv.sample { schemes := [c%"https"] } c%"img" c%"src" .allow true none none c%"1x:y" = some c%"1x:y" := by decide

end JH
