import Verif.Model.Py

/-! Lemmas about the Python string primitives. -/
namespace JH

theorem toNat_ofNat {n : Nat} (h : n < 0xD800) : (Char.ofNat n).toNat = n := by
  have hv : n.isValidChar := Or.inl h
  simp [Char.ofNat, hv, Char.toNat, Char.ofNatAux]

theorem char_eq_of_toNat {a b : Char} (h : a.toNat = b.toNat) : a = b := by
  exact Char.ext (UInt32.toNat_inj.1 h)

theorem lowerC_eq_self {c : Char} (h : isUpperC c = false) : lowerC c = c := by
  simp [lowerC, h]

theorem lowerC_toNat_upper {c : Char} (h : isUpperC c = true) : (lowerC c).toNat = c.toNat + 32 := by
  have hb : c.toNat ≤ 90 := by
    simp [isUpperC] at h
    have := h.2
    simpa using this
  simp only [lowerC, h, if_true]
  exact toNat_ofNat (by omega)

theorem isUpperC_iff (c : Char) : isUpperC c = true ↔ 65 ≤ c.toNat ∧ c.toNat ≤ 90 := by
  simp [isUpperC]

theorem isLowerC_iff (c : Char) : isLowerC c = true ↔ 97 ≤ c.toNat ∧ c.toNat ≤ 122 := by
  simp [isLowerC]

theorem isDigitC_iff (c : Char) : isDigitC c = true ↔ 48 ≤ c.toNat ∧ c.toNat ≤ 57 := by
  simp [isDigitC]

theorem isAscii_iff (c : Char) : isAscii c = true ↔ c.toNat < 128 := by simp [isAscii]

attribute [simp] lowerC_idem

@[simp] theorem lowerA_length (s : Str) : (lowerA s).length = s.length := by simp [lowerA]

@[simp] theorem lowerA_idem (s : Str) : lowerA (lowerA s) = lowerA s := by
  simp [lowerA, Function.comp_def]

@[simp] theorem lowerA_nil : lowerA [] = [] := rfl
@[simp] theorem lowerA_cons (c : Char) (s : Str) : lowerA (c :: s) = lowerC c :: lowerA s := rfl
@[simp] theorem lowerA_append (a b : Str) : lowerA (a ++ b) = lowerA a ++ lowerA b := by
  simp [lowerA]

theorem isAscii_lowerC (c : Char) : isAscii (lowerC c) = isAscii c := by
  by_cases h : isUpperC c = true
  · have h1 := lowerC_toNat_upper h
    have h2 := (isUpperC_iff c).1 h
    simp only [isAscii, h1]
    have a : c.toNat + 32 < 128 := by omega
    have b : c.toNat < 128 := by omega
    simp [a, b]
  · simp only [Bool.not_eq_true] at h
    rw [lowerC_eq_self h]

/-- If the lower-cased character is not an ASCII lower-case letter, it is the character itself. -/
theorem lowerC_eq_nonletter {c d : Char} (hd : isLowerC d = false) (h : lowerC c = d) : c = d := by
  by_cases hu : isUpperC c = true
  · have h1 := lowerC_toNat_upper hu
    have h2 := (isUpperC_iff c).1 hu
    exfalso
    have : isLowerC d = true := by rw [isLowerC_iff, ← h]; omega
    simp [this] at hd
  · simp only [Bool.not_eq_true] at hu
    rwa [lowerC_eq_self hu] at h

theorem startsWith_iff {p s : Str} : startsWith p s = true ↔ ∃ t, s = p ++ t := by
  simp only [startsWith, List.isPrefixOf_iff_prefix]
  constructor
  · rintro ⟨t, h⟩; exact ⟨t, h.symm⟩
  · rintro ⟨t, h⟩; exact ⟨t, h.symm⟩

theorem endsWith_iff {p s : Str} : endsWith p s = true ↔ ∃ t, s = t ++ p := by
  simp only [endsWith, List.isSuffixOf_iff_suffix]
  constructor
  · rintro ⟨t, h⟩; exact ⟨t, h.symm⟩
  · rintro ⟨t, h⟩; exact ⟨t, h.symm⟩

theorem startsWith_append (p t : Str) : startsWith p (p ++ t) = true := startsWith_iff.2 ⟨t, rfl⟩

/-- Characterisation of a successful `find`. -/
theorem find?_some {n s : Str} {k : Nat} (h : find? n s = some k) :
    k ≤ s.length ∧ startsWith n (s.drop k) = true ∧
      ∀ j, j < k → startsWith n (s.drop j) = false := by
  induction s generalizing k with
  | nil =>
    simp only [find?] at h
    split at h
    · rename_i hn
      simp only [Option.some.injEq] at h
      subst h
      have : n = [] := by simpa using hn
      subst this
      simp [startsWith]
    · simp at h
  | cons c cs ih =>
    simp only [find?] at h
    split at h
    · rename_i hs
      simp only [Option.some.injEq] at h; subst h
      simp [hs]
    · rename_i hs
      simp only [Bool.not_eq_true] at hs
      cases hk : find? n cs with
      | none => simp [hk] at h
      | some k' =>
        simp [hk] at h; subst h
        obtain ⟨h1, h2, h3⟩ := ih hk
        refine ⟨by simpa using h1, by simpa using h2, ?_⟩
        intro j hj
        cases j with
        | zero => simpa using hs
        | succ j => simpa using h3 j (by omega)

theorem find?_none {n s : Str} (h : find? n s = none) :
    ∀ j, j ≤ s.length → startsWith n (s.drop j) = false := by
  induction s with
  | nil =>
    intro j hj
    simp only [find?] at h
    split at h
    · simp at h
    · rename_i hn
      simp only [startsWith]
      cases n with
      | nil => simp at hn
      | cons a b => simp
  | cons c cs ih =>
    simp only [find?] at h
    split at h
    · simp at h
    · rename_i hs
      simp only [Bool.not_eq_true] at hs
      have hn : find? n cs = none := by simpa using h
      intro j hj
      cases j with
      | zero => simpa using hs
      | succ j => simpa using ih hn j (by simpa using hj)

theorem isIn_iff {n s : Str} : isIn n s = true ↔ ∃ a b, s = a ++ n ++ b := by
  unfold isIn
  constructor
  · intro h
    cases hk : find? n s with
    | none => simp [hk] at h
    | some k =>
      obtain ⟨_, h2, _⟩ := find?_some hk
      obtain ⟨t, ht⟩ := startsWith_iff.1 h2
      refine ⟨s.take k, t, ?_⟩
      rw [List.append_assoc, ← ht, List.take_append_drop]
  · rintro ⟨a, b, h⟩
    cases hk : find? n s with
    | some k => rfl
    | none =>
      have := find?_none hk a.length (by simp [h])
      rw [h, List.append_assoc, List.drop_left, startsWith_append] at this
      simp at this

theorem isIn_false_iff {n s : Str} : isIn n s = false ↔ ∀ a b, s ≠ a ++ n ++ b := by
  rw [← Bool.not_eq_true, isIn_iff]
  simp

theorem isIn_singleton {c : Char} {s : Str} : isIn [c] s = true ↔ c ∈ s := by
  rw [isIn_iff]
  constructor
  · rintro ⟨a, b, rfl⟩; simp
  · intro h
    obtain ⟨a, b, h⟩ := List.append_of_mem h
    exact ⟨a, b, by simp [h]⟩

@[simp] theorem replaceC_nil (c : Char) (r : Str) : replaceC c r [] = [] := rfl
@[simp] theorem replaceC_cons (c : Char) (r : Str) (x : Char) (s : Str) :
    replaceC c r (x :: s) = (if x = c then r else [x]) ++ replaceC c r s := rfl
@[simp] theorem replaceC_append (c : Char) (r a b : Str) :
    replaceC c r (a ++ b) = replaceC c r a ++ replaceC c r b := by simp [replaceC]

theorem replaceC_of_not_mem {c : Char} {r s : Str} (h : c ∉ s) : replaceC c r s = s := by
  induction s with
  | nil => rfl
  | cons x s ih =>
    simp only [List.mem_cons, not_or] at h
    rw [replaceC_cons, ih h.2, if_neg (fun e => h.1 e.symm)]
    rfl

theorem ite_pred {α : Type _} (P : α → Prop) {p : Prop} [Decidable p] {a b : α}
    (ha : p → P a) (hb : ¬p → P b) : P (if p then a else b) := by
  by_cases h : p
  · rw [if_pos h]; exact ha h
  · rw [if_neg h]; exact hb h

theorem splitC_ne_nil (sep : Char) (s : Str) : splitC sep s ≠ [] := by
  cases s with
  | nil => simp [splitC]
  | cons c cs =>
    simp only [splitC]
    split
    · simp
    · split <;> simp

end JH
