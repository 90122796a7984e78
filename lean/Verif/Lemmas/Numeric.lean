import Verif.Lemmas.Entities

namespace JH
open Spec

theorem digitVal_dec {c : Char} (h : isDigitC c = true) : digitVal c = c.toNat - 48 := by
  rw [isDigitC_iff] at h
  unfold digitVal; simp only
  rw [if_pos (by omega)]

theorem digitVal_hex {c : Char} (h : isHexC c = true) : digitVal c = hexVal c := by
  unfold isHexC at h
  simp only [Bool.or_eq_true, Bool.and_eq_true, decide_eq_true_eq] at h
  have ea : 'a'.toNat = 97 := rfl
  have ef : 'f'.toNat = 102 := rfl
  have eA : 'A'.toNat = 65 := rfl
  have eF : 'F'.toNat = 70 := rfl
  rw [ea, ef, eA, eF] at h
  unfold digitVal hexVal
  simp only
  rw [ea]
  by_cases hd : isDigitC c = true
  · rw [if_pos hd]
    rw [isDigitC_iff] at hd
    rw [if_pos (by omega)]
  · rw [if_neg hd]
    have hd' := mt (isDigitC_iff c).2 hd
    have h' : (97 ≤ c.toNat ∧ c.toNat ≤ 102) ∨ (65 ≤ c.toNat ∧ c.toNat ≤ 70) := by
      rcases h with (h | h) | h
      · exact absurd h hd
      · exact Or.inl h
      · exact Or.inr h
    rcases h' with h' | h'
    · rw [if_neg (by omega), if_neg (by omega), if_pos (by omega)]
    · rw [if_neg (by omega), if_pos (by omega), if_neg (by omega)]

/-- The digit characters accepted for a base. -/
def okDigit (hex : Bool) (c : Char) : Bool := if hex then isHexC c else isDigitC c

/-- The base. -/
def baseOf (hex : Bool) : Nat := if hex then 16 else 10

theorem pyInt_eq (U : Uni) (hex : Bool) (ds : Str) (acc : Nat) (h : ∀ c ∈ ds, okDigit hex c = true) :
    pyInt U hex acc ds = some (ds.foldl (fun a c => a * baseOf hex + digitVal c) acc) := by
  induction ds generalizing acc with
  | nil => simp [pyInt]
  | cons c ds ih =>
    have hc := h c (by simp)
    have hr := fun d hd => h d (List.mem_cons_of_mem c hd)
    cases hex with
    | true =>
      simp only [okDigit, if_true] at hc
      simp only [pyInt, if_true, List.foldl_cons, baseOf]
      rw [ih _ hr, digitVal_hex hc]
      rfl
    | false =>
      simp only [okDigit, Bool.false_eq_true, if_false] at hc
      simp only [pyInt, Bool.false_eq_true, if_false, List.foldl_cons, baseOf]
      rw [U.decVal_ascii c hc]
      simp only
      rw [ih _ hr, digitVal_dec hc]
      rfl

theorem number_strip0 (b : Nat) (ds : Str) : number b (ds.dropWhile (· = '0')) = number b ds := by
  unfold number
  induction ds with
  | nil => rfl
  | cons c ds ih =>
    rw [List.dropWhile_cons]
    split
    · rename_i h
      have hc : c = '0' := by simpa using h
      subst hc
      rw [ih, List.foldl_cons]
      have : 0 * b + digitVal '0' = 0 := by
        have : digitVal '0' = 0 := by decide
        omega
      rw [this]
    · rfl

theorem foldl_ge (b : Nat) (ds : Str) (a : Nat) :
    a * b ^ ds.length ≤ ds.foldl (fun a c => a * b + digitVal c) a := by
  induction ds generalizing a with
  | nil => simp
  | cons c ds ih =>
    rw [List.foldl_cons, List.length_cons]
    refine Nat.le_trans ?_ (ih _)
    rw [Nat.pow_succ, Nat.mul_comm (b ^ ds.length) b, ← Nat.mul_assoc]
    exact Nat.mul_le_mul_right _ (Nat.le_add_right _ _)

theorem okDigit_pos {hex : Bool} {c : Char} (h : okDigit hex c = true) (h0 : c ≠ '0') : 1 ≤ digitVal c := by
  have hn : c.toNat ≠ 48 := by
    intro e; exact h0 (char_eq_of_toNat e)
  cases hex with
  | false =>
    simp only [okDigit, Bool.false_eq_true, if_false] at h
    rw [digitVal_dec h]
    rw [isDigitC_iff] at h
    omega
  | true =>
    simp only [okDigit, if_true] at h
    unfold isHexC at h
    simp only [Bool.or_eq_true, Bool.and_eq_true, decide_eq_true_eq, isDigitC_iff] at h
    have ea : 'a'.toNat = 97 := rfl
    have ef : 'f'.toNat = 102 := rfl
    have eA : 'A'.toNat = 65 := rfl
    have eF : 'F'.toNat = 70 := rfl
    rw [ea, ef, eA, eF] at h
    unfold digitVal
    simp only
    split
    · omega
    · split <;> omega

theorem dropWhile_head {p : Char → Bool} {l : Str} {c : Char} {r : Str} (h : l.dropWhile p = c :: r) :
    p c = false := by
  induction l with
  | nil => simp at h
  | cons x l ih =>
    rw [List.dropWhile_cons] at h
    split at h
    · exact ih h
    · rename_i hp
      simp only [List.cons.injEq] at h
      rw [← h.1]; simpa using hp

/-- A digit string whose significant part is longer than 16 digits denotes a number beyond Unicode. -/
theorem number_big (hex : Bool) (ds : Str) (hds : ∀ c ∈ ds, okDigit hex c = true)
    (hl : 16 < (ds.dropWhile (· = '0')).length) : 0x10FFFF < number (baseOf hex) ds := by
  rw [← number_strip0]
  cases hd : ds.dropWhile (· = '0') with
  | nil => simp [hd] at hl
  | cons c r =>
    rw [hd] at hl
    have hc0 : c ≠ '0' := by
      have := dropWhile_head hd
      simpa using this
    have hcm : c ∈ ds := by
      have : c ∈ ds.dropWhile (· = '0') := by rw [hd]; simp
      exact (List.dropWhile_suffix _).subset this
    have h1 := okDigit_pos (hds c hcm) hc0
    unfold number
    rw [List.foldl_cons]
    refine Nat.lt_of_lt_of_le ?_ (foldl_ge (baseOf hex) r _)
    have hb : 10 ≤ baseOf hex := by cases hex <;> simp [baseOf]
    have hr : 16 ≤ r.length := by simp at hl; omega
    have h2 : 10 ^ 16 ≤ baseOf hex ^ r.length := by
      calc 10 ^ 16 ≤ baseOf hex ^ 16 := Nat.pow_le_pow_left hb 16
        _ ≤ baseOf hex ^ r.length := Nat.pow_le_pow_right (by omega) hr
    have h3 : 1 * 10 ^ 16 ≤ (0 * baseOf hex + digitVal c) * baseOf hex ^ r.length :=
      Nat.mul_le_mul (by omega) h2
    refine Nat.lt_of_lt_of_le (by decide) h3

theorem lookup_small : ∀ cp : Fin 160, cp.val ≠ 0 →
    (match numericReplacements.lookup cp.val with | some r => r | none => cp.val) = numericChar cp.val := by
  decide +kernel

theorem lookup_large (cp : Nat) (h : 160 ≤ cp) : numericReplacements.lookup cp = none := by
  unfold numericReplacements
  simp only [List.lookup]
  repeat
    rw [show (cp == _) = false from by simp; omega]
    try simp only

theorem decodeNumeric_spec (U : Uni) (hex : Bool) (ds : Str)
    (hds : ∀ c ∈ ds, okDigit hex c = true) :
    decodeNumeric U hex ds = some (Char.ofNat (numericChar (number (baseOf hex) ds))) := by
  unfold decodeNumeric lstripP
  simp only
  have hlen1 : ∀ (l : Str), (if l.isEmpty = true then ['0'] else l).length > 16 ↔ 16 < l.length := by
    intro l; split
    · rename_i h; have : l = [] := by simpa using h
      subst this; simp
    · rfl
  by_cases hbig : 16 < (ds.dropWhile (· = '0')).length
  · rw [if_pos ((hlen1 _).2 hbig)]
    have := number_big hex ds hds hbig
    unfold numericChar
    rw [if_pos (Or.inr (Or.inl (by omega)))]
  · rw [if_neg (mt (hlen1 _).1 hbig)]
    have hsub : ∀ c ∈ (if (ds.dropWhile (· = '0')).isEmpty = true then ['0'] else ds.dropWhile (· = '0')),
        okDigit hex c = true := by
      split
      · intro c hc; simp at hc; subst hc; cases hex <;> decide
      · intro c hc; exact hds c ((List.dropWhile_suffix _).subset hc)
    rw [pyInt_eq U hex _ 0 hsub]
    have hnum : (if (ds.dropWhile (· = '0')).isEmpty = true then ['0'] else ds.dropWhile (· = '0')).foldl
        (fun a c => a * baseOf hex + digitVal c) 0 = number (baseOf hex) ds := by
      rw [← number_strip0]
      split
      · rename_i h
        have h' : ds.dropWhile (· = '0') = [] := by simpa using h
        rw [h']
        simp [number, show digitVal '0' = 0 by decide]
      · rfl
    rw [hnum]
    generalize number (baseOf hex) ds = n
    simp only
    split
    · rename_i h
      unfold numericChar; rw [if_pos (Or.inr (Or.inl h))]
    · rename_i h1
      split
      · rename_i h
        unfold numericChar; rw [if_pos (Or.inr (Or.inr h))]
      · rename_i h2
        by_cases h160 : 160 ≤ n
        · rw [lookup_large n h160]
          unfold numericChar
          rw [if_neg (by omega), if_neg (by omega)]
        · by_cases h0 : n = 0
          · subst h0; rfl
          · have hs := lookup_small ⟨n, by omega⟩ h0
            simp only at hs
            rw [← hs]
            cases numericReplacements.lookup n <;> rfl

/-- The denoted code point is a valid non-NUL scalar value. -/
theorem numericChar_valid (n : Nat) :
    numericChar n ≠ 0 ∧ (numericChar n < 0xD800 ∨ (0xDFFF < numericChar n ∧ numericChar n ≤ 0x10FFFF)) := by
  have hc1 : ∀ i : Fin 32, c1.getD i.val 0 ≠ 0 ∧ c1.getD i.val 0 < 0xD800 := by decide +kernel
  unfold numericChar
  split
  · omega
  · split
    · have := hc1 ⟨n - 0x80, by omega⟩
      simp only at this
      exact ⟨this.1, Or.inl this.2⟩
    · omega

theorem mem_takeWhile {p : Char → Bool} {l : Str} {c : Char} (h : c ∈ l.takeWhile p) : p c = true := by
  induction l with
  | nil => simp at h
  | cons x l ih =>
    rw [List.takeWhile_cons] at h
    split at h
    · rename_i hp
      rcases List.mem_cons.1 h with rfl | h
      · exact hp
      · exact ih h
    · simp at h

theorem pyInt_total (U : Uni) (hex : Bool) (ds : Str) (acc : Nat)
    (h : hex = false → ∀ c ∈ ds, (U.decVal c).isSome = true) : pyInt U hex acc ds ≠ none := by
  induction ds generalizing acc with
  | nil => simp [pyInt]
  | cons c ds ih =>
    unfold pyInt
    cases hex with
    | true => exact ih _ (fun e => by simp at e)
    | false =>
      have hc := h rfl c (by simp)
      cases hv : U.decVal c with
      | none => rw [hv] at hc; simp at hc
      | some d =>
        simp only [Bool.false_eq_true, if_false]
        exact ih _ (fun _ e he => h rfl e (by simp [he]))

theorem decodeNumeric_total (U : Uni) (hex : Bool) (ds : Str)
    (h : hex = false → ∀ c ∈ ds, (U.decVal c).isSome = true) : decodeNumeric U hex ds ≠ none := by
  unfold decodeNumeric
  simp only
  have : pyInt U hex 0 (if (lstripP (· = '0') ds).isEmpty = true then ['0'] else lstripP (· = '0') ds) ≠ none := by
    apply pyInt_total
    intro he c hc
    split at hc
    · simp at hc; subst hc; rw [U.decVal_ascii _ (by decide)]; rfl
    · exact h he c ((List.dropWhile_suffix _).subset hc)
  generalize (if (lstripP (· = '0') ds).isEmpty = true then ['0'] else lstripP (· = '0') ds) = digs at this ⊢
  cases hp : pyInt U hex 0 digs with
  | none => exact absurd hp this
  | some cp =>
    simp only
    cases numericReplacements.lookup cp <;> (repeat' split) <;> simp

theorem numericTail_total (U : Uni) (hex : Bool) (pre body : Str)
    (h : ∀ c ∈ body, U.isDigit c = true → (U.decVal c).isSome = true) : numericTail U hex pre body ≠ none := by
  have hd : decodeNumeric U hex (body.takeWhile (if hex then isHexC else U.isDigit)) ≠ none := by
    apply decodeNumeric_total
    intro he c hc
    subst he
    have hc' : c ∈ body.takeWhile U.isDigit := hc
    exact h c ((List.takeWhile_prefix _).subset hc') (mem_takeWhile hc')
  unfold numericTail
  simp only
  cases hn : decodeNumeric U hex (body.takeWhile (if hex then isHexC else U.isDigit)) with
  | none => exact absurd hn hd
  | some c =>
    simp only
    generalize (body.takeWhile (if hex then isHexC else U.isDigit)).isEmpty = e
    cases e <;> simp

theorem refAt_total (U : Uni) (T : EntTables) (attr : Bool) (cs : Str)
    (h : ∀ c ∈ cs, U.isDigit c = true → (U.decVal c).isSome = true) : refAt U T attr cs ≠ none := by
  unfold refAt
  split
  · rename_i ds
    unfold numericRef
    split
    · exact numericTail_total U _ _ _ (fun c hc => h c (by
        have := (List.drop_suffix 1 ds).subset hc
        simp [this]))
    · exact numericTail_total U _ _ _ (fun c hc => h c (by simp [hc]))
  · simp

theorem numericTail_suffix {U : Uni} {hex : Bool} {pre body o r : Str}
    (hh : numericTail U hex pre body = some (o, r)) : r <:+ body := by
  unfold numericTail at hh
  simp only at hh
  generalize (if hex = true then isHexC else U.isDigit) = isD at hh
  have h1 : (if (body.dropWhile isD).head? = some ';' then (body.dropWhile isD).tail
      else body.dropWhile isD) <:+ body := by
    split
    · exact (List.tail_suffix _).trans (List.dropWhile_suffix _)
    · exact List.dropWhile_suffix _
  split at hh
  · simp only [Option.some.injEq, Prod.mk.injEq] at hh; rw [← hh.2]; exact h1
  · split at hh
    · simp only [Option.some.injEq, Prod.mk.injEq] at hh; rw [← hh.2]; exact h1
    · simp at hh

theorem refAt_suffix {U : Uni} {T : EntTables} {attr : Bool} {cs o r : Str}
    (hr : refAt U T attr cs = some (o, r)) : r <:+ cs := by
  unfold refAt at hr
  split at hr
  · rename_i ds
    unfold numericRef at hr
    split at hr
    · exact ((numericTail_suffix hr).trans (List.drop_suffix 1 ds)).trans (List.suffix_cons _ _)
    · exact (numericTail_suffix hr).trans (List.suffix_cons _ _)
  · simp only [Option.some.injEq] at hr
    have : r = (namedRef U T attr cs).2 := by rw [hr]
    rw [this]
    unfold namedRef
    simp only
    have hd := List.dropWhile_suffix (l := cs) (fun c => U.isAlpha c || U.isDigit c)
    generalize List.dropWhile (fun c => U.isAlpha c || U.isDigit c) cs = after at hd ⊢
    generalize List.takeWhile (fun c => U.isAlpha c || U.isDigit c) cs = run
    generalize (if run.length ≤ T.maxNamed then run else []) = name
    have ht : after.tail <:+ cs := (List.tail_suffix _).trans hd
    repeat' split
    all_goals first
      | exact List.suffix_rfl
      | exact ht
      | exact hd
      | exact List.drop_suffix _ _

end JH
