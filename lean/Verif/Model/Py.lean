import Lean.Elab.Command
import Batteries.Data.List.Basic
/-!
# Python string primitives used by the modelled code

Strings are lists of Unicode scalar values (Python `str` without lone surrogates).
No file of /repo is modelled here: these are the CPython string operations the code calls.
-/

namespace JH

/-- A Python `str`. -/
abbrev Str := List Char

open Lean in
/-- `c%"abc"` is notation for the explicit list `['a', 'b', 'c']`. -/
macro:max "c%" s:str : term => do
  let cs : Array (TSyntax `term) := (s.getString.toList.map fun c => (⟨Syntax.mkCharLit c⟩ : TSyntax `term)).toArray
  `(([$cs,*] : List Char))

/-- `ord(c) < 128`. -/
def isAscii (c : Char) : Bool := c.toNat < 128

/-- ASCII upper-case letter. -/
def isUpperC (c : Char) : Bool := 'A'.toNat ≤ c.toNat && c.toNat ≤ 'Z'.toNat

/-- ASCII lower-case letter. -/
def isLowerC (c : Char) : Bool := 'a'.toNat ≤ c.toNat && c.toNat ≤ 'z'.toNat

/-- ASCII letter: `("a" <= ch <= "z") or ("A" <= ch <= "Z")` (parser/stream.py:496-497). -/
def isAsciiAlpha (c : Char) : Bool := isLowerC c || isUpperC c

/-- ASCII digit. -/
def isDigitC (c : Char) : Bool := '0'.toNat ≤ c.toNat && c.toNat ≤ '9'.toNat

/-- ASCII lower-casing of one character; other characters are unchanged. -/
def lowerC (c : Char) : Char := if isUpperC c then Char.ofNat (c.toNat + 32) else c

/-- ASCII lower-casing of a string (what `str.lower()` does on ASCII text). -/
def lowerA (s : Str) : Str := s.map lowerC

/-- `s.startswith(p)`. -/
def startsWith (p s : Str) : Bool := p.isPrefixOf s

/-- `s.endswith(p)`. -/
def endsWith (p s : Str) : Bool := p.isSuffixOf s

/-- `s.find(n)`: offset of the first occurrence of `n`. -/
def find? (n : Str) : Str → Option Nat
  | [] => if n.isEmpty then some 0 else none
  | c :: cs => if startsWith n (c :: cs) then some 0 else (find? n cs).map (· + 1)

/-- `n in s`. -/
def isIn (n s : Str) : Bool := (find? n s).isSome

/-- `s.replace(c, r)` for a one-character `c`. -/
def replaceC (c : Char) (r : Str) (s : Str) : Str := s.flatMap fun x => if x = c then r else [x]

/-- `s.lstrip(chars)` with `p` deciding membership in the strip set. -/
def lstripP (p : Char → Bool) (s : Str) : Str := s.dropWhile p

/-- `s.rstrip(chars)`. -/
def rstripP (p : Char → Bool) (s : Str) : Str := (s.reverse.dropWhile p).reverse

/-- `s.strip(chars)`. -/
def stripP (p : Char → Bool) (s : Str) : Str := rstripP p (lstripP p s)

/-- `s.split(sep)` for a one-character separator (always at least one piece). -/
def splitC (sep : Char) : Str → List Str
  | [] => [[]]
  | c :: cs =>
    match splitC sep cs with
    | [] => [[c]]          -- unreachable: splitC never returns []
    | w :: ws => if c = sep then [] :: w :: ws else (c :: w) :: ws

/-- `sep.join(parts)`. -/
def join (sep : Str) : List Str → Str
  | [] => []
  | [w] => w
  | w :: ws => w ++ sep ++ join sep ws

/-- `s.partition(sep)` for a one-character separator: text before, separator found, text after. -/
def partitionC (sep : Char) : Str → Str × Bool × Str
  | [] => ([], false, [])
  | c :: cs => if c = sep then ([], true, cs) else
      let (a, f, b) := partitionC sep cs
      (c :: a, f, b)

/-- `HTML_SPACE_CHARACTERS = " \t\n\f\r"` (core/constants.py). -/
def isHtmlSpace (c : Char) : Bool :=
  c = ' ' || c = '\t' || c = '\n' || c = '\x0c' || c = '\r'

/-- Python's Unicode database and number parsing, as far as the modelled code uses them.
Theorems quantify over every such structure, so they hold for every Unicode version;
only the ASCII range is pinned down. -/
structure Uni where
  /-- `str.isalpha()` on one character -/
  isAlpha : Char → Bool
  /-- `str.isdigit()` on one character -/
  isDigit : Char → Bool
  /-- `str.isalnum()` on one character -/
  isAlnum : Char → Bool
  /-- `str.isspace()` on one character (what `str.strip()`/`str.split()` remove) -/
  isSpace : Char → Bool
  /-- value of one character in `int(text, 10)`, `none` when `int` raises ValueError -/
  decVal : Char → Option Nat
  /-- `str.lower()` -/
  lower : Str → Str
  isAlpha_ascii : ∀ c, isAscii c = true → isAlpha c = isAsciiAlpha c
  isDigit_ascii : ∀ c, isAscii c = true → isDigit c = isDigitC c
  isAlnum_ascii : ∀ c, isAscii c = true → isAlnum c = (isAsciiAlpha c || isDigitC c)
  isSpace_ascii : ∀ c, isAscii c = true → isSpace c =
    (c = ' ' || (9 ≤ c.toNat && c.toNat ≤ 13) || (28 ≤ c.toNat && c.toNat ≤ 31))
  decVal_ascii : ∀ c, isDigitC c = true → decVal c = some (c.toNat - 48)
  lower_ascii : ∀ s, s.all isAscii = true → lower s = lowerA s
  /-- CPython: U+0130 is the only character whose lower case has more than one character, and U+0130 and U+212A are the only
  non-ASCII characters whose lower case contains an ASCII character. -/
  lower_fold : ∀ s, '\u0130' ∉ s → '\u212a' ∉ s → List.Forall₂ (fun c d =>
    (isAscii c = true → d = lowerC c) ∧ (isAscii c = false → isAscii d = false)) s (lower s)
  /-- CPython: without U+0130, lower-casing keeps the number of characters, and lower-cases the ASCII ones as expected. -/
  lower_pos : ∀ s, '\u0130' ∉ s → List.Forall₂ (fun c d => isAscii c = true → d = lowerC c) s (lower s)
  /-- Unicode: lower-casing twice is lower-casing once. -/
  lower_idem : ∀ s, lower (lower s) = lower s
  /-- Unicode: the lower case of a character that is not a space contains no space. -/
  lower_space : ∀ s, (∀ c ∈ s, isSpace c = false) → ∀ c ∈ lower s, isSpace c = false
  /-- Unicode: no character has an empty lower case. -/
  lower_ne : ∀ s, s ≠ [] → lower s ≠ []
  /-- CPython: an ASCII character at the start is lower-cased on its own, whatever follows. -/
  lower_head : ∀ c s, isAscii c = true → (lower (c :: s)).head? = some (lowerC c)
  /-- CPython: every ASCII character leaves its lower case. -/
  lower_mem : ∀ s c, isAscii c = true → c ∈ s → lowerC c ∈ lower s
  /-- CPython: lower-casing the ASCII letters first makes no difference. -/
  lower_lowerA : ∀ s, lower (lowerA s) = lower s
  /-- CPython: an ASCII character that is no letter comes from itself. -/
  lower_from : ∀ s c, isAscii c = true → isAsciiAlpha c = false → c ∈ lower s → c ∈ s

/-- The number of a lower-cased ASCII capital. -/
theorem lowerC_toNat (c : Char) (h : isUpperC c = true) : (lowerC c).toNat = c.toNat + 32 ∧ 65 ≤ c.toNat ∧ c.toNat ≤ 90 := by
  have h' := h
  simp only [isUpperC, Bool.and_eq_true, decide_eq_true_eq] at h'
  have h1 : 'Z'.toNat = 90 := rfl
  have h2 : 'A'.toNat = 65 := rfl
  refine ⟨?_, by omega, by omega⟩
  rw [lowerC, if_pos h]
  have hb : c.toNat + 32 < 0xD800 := by omega
  generalize c.toNat + 32 = n at hb
  have hv : n.isValidChar := Or.inl hb
  simp [Char.ofNat, hv, Char.toNat, Char.ofNatAux]

/-- A character whose lower case is no letter is its own lower case. -/
theorem lowerC_nonalpha (c : Char) (h : isAsciiAlpha (lowerC c) = false) : lowerC c = c := by
  by_cases hu : isUpperC c = true
  · have := lowerC_toNat c hu
    have hl : isLowerC (lowerC c) = true := by
      have h1 : 'a'.toNat = 97 := rfl
      have h2 : 'z'.toNat = 122 := rfl
      simp only [isLowerC, Bool.and_eq_true, decide_eq_true_eq]
      omega
    simp [isAsciiAlpha, hl] at h
  · rw [lowerC, if_neg hu]

theorem lowerC_idem (c : Char) : lowerC (lowerC c) = lowerC c := by
  by_cases hu : isUpperC c = true
  · have hv := lowerC_toNat c hu
    have hn : isUpperC (lowerC c) = false := by
      have : 'Z'.toNat = 90 := rfl
      simp only [isUpperC, Bool.and_eq_false_iff, decide_eq_false_iff_not]
      right
      omega
    rw [lowerC, if_neg (by simp [hn])]
  · have : lowerC c = c := by simp [lowerC, hu]
    rw [this, this]

/-- A concrete `Uni` (pure ASCII plus the superscript two, for which `'²'.isdigit()` is true and
`int('²')` raises): used to show that the hypotheses are satisfiable and for counterexamples. -/
def Uni.sample : Uni where
  isAlpha := isAsciiAlpha
  isDigit := fun c => isDigitC c || c = '²'
  isAlnum := fun c => isAsciiAlpha c || isDigitC c || c = '²'
  isSpace := fun c => c = ' ' || (9 ≤ c.toNat && c.toNat ≤ 13) || (28 ≤ c.toNat && c.toNat ≤ 31)
  decVal := fun c => if isDigitC c then some (c.toNat - 48) else none
  lower := lowerA
  isAlpha_ascii := fun _ _ => rfl
  isDigit_ascii := fun c h => by
    have : c ≠ '²' := by rintro rfl; exact absurd h (by decide)
    simp [this]
  isAlnum_ascii := fun c h => by
    have : c ≠ '²' := by rintro rfl; exact absurd h (by decide)
    simp [this]
  isSpace_ascii := fun _ _ => rfl
  decVal_ascii := fun c h => by simp [h]
  lower_ascii := fun _ _ => rfl
  lower_fold := fun s _ _ => by
    have hA : ∀ c : Char, isAscii c = false → isAscii (lowerC c) = false := by
      intro c h
      have : isUpperC c = false := by
        simp only [isAscii, decide_eq_false_iff_not, Nat.not_lt] at h
        simp only [isUpperC, Bool.and_eq_false_iff, decide_eq_false_iff_not]
        right
        have : 'Z'.toNat = 90 := rfl
        omega
      simp [lowerC, this, h]
    induction s with
    | nil => exact .nil
    | cons c s ih => exact .cons ⟨fun _ => rfl, hA c⟩ (ih (by simp_all) (by simp_all))
  lower_pos := fun s _ => by
    induction s with
    | nil => exact .nil
    | cons c s ih => exact .cons (fun _ => rfl) (ih (by simp_all))
  lower_idem := fun s => by
    induction s with
    | nil => rfl
    | cons c s ih => simp only [lowerA, List.map_cons] at ih ⊢; rw [ih, lowerC_idem]
  lower_ne := fun s hs => by simpa [lowerA] using hs
  lower_head := fun _ _ _ => rfl
  lower_mem := fun s c _ h => List.mem_map.2 ⟨c, h, rfl⟩
  lower_lowerA := fun s => by
    induction s with
    | nil => rfl
    | cons c s ih => simp only [lowerA, List.map_cons] at ih ⊢; rw [ih, lowerC_idem]
  lower_from := fun s c _ ha h => by
    obtain ⟨d, hd, rfl⟩ := List.mem_map.1 h
    rw [lowerC_nonalpha d ha]; exact hd
  lower_space := fun s hs c hc => by
    simp only [lowerA, List.mem_map] at hc
    obtain ⟨d, hd, rfl⟩ := hc
    by_cases hu : isUpperC d = true
    · have hv := lowerC_toNat d hu
      have hne : lowerC d ≠ ' ' := by
        intro e
        have := congrArg Char.toNat e
        have : ' '.toNat = 32 := rfl
        omega
      simp only [hne, decide_false, Bool.false_or, Bool.or_eq_false_iff, Bool.and_eq_false_iff, decide_eq_false_iff_not]
      omega
    · have : lowerC d = d := by simp [lowerC, hu]
      rw [this]; exact hs d hd

end JH
