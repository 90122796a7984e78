import Verif.Model.Py
/-! Specification for C110: which lines CommonMark reads as the start of a block other than a paragraph (CommonMark 0.31, sections 4 and 5). -/
namespace JH.Spec

/-- A space or a tab. -/
def MdBlank (c : Char) : Prop := c = ' ' ∨ c = '\t'

instance (c : Char) : Decidable (MdBlank c) := inferInstanceAs (Decidable (_ ∨ _))

/-- What follows a marker: the end of the line, a space or a tab. -/
def AfterMarker (r : Str) : Prop := ∀ c, r.head? = some c → MdBlank c

/-- The line begins something other than a paragraph, or turns the line above into a heading. (Up to three spaces may stand before a marker;
here every line that begins with white space counts.) -/
inductive StartsBlock (l : Str) : Prop
  /-- 4.2: one to six `#`. -/
  | heading (k : Nat) (r : Str) : l = List.replicate k '#' ++ r → 1 ≤ k → k ≤ 6 → AfterMarker r → StartsBlock l
  /-- 5.2: a bullet. -/
  | bullet (m : Char) (r : Str) : l = m :: r → m ∈ c%"-+*" → AfterMarker r → StartsBlock l
  /-- 5.2: a number of one to nine digits, then `.` or `)`. -/
  | ordered (ds : Str) (p : Char) (r : Str) : l = ds ++ p :: r → (∀ c ∈ ds, isDigitC c = true) → 1 ≤ ds.length → ds.length ≤ 9 → p ∈ c%".)" →
      AfterMarker r → StartsBlock l
  /-- 5.1: a block quote. -/
  | quote (r : Str) : l = '>' :: r → StartsBlock l
  /-- 4.1: a thematic break. -/
  | rule (m : Char) : m ∈ c%"-_*" → (∀ c ∈ l, c = m ∨ MdBlank c) → 3 ≤ l.count m → StartsBlock l
  /-- 4.5: a code fence. -/
  | fence (m : Char) (r : Str) : l = m :: m :: m :: r → m ∈ c%"`~" → StartsBlock l
  /-- 4.3: the underline of a heading. -/
  | underline (m : Char) (u r : Str) : l = u ++ r → m ∈ c%"=-" → u ≠ [] → (∀ c ∈ u, c = m) → (∀ c ∈ r, MdBlank c) → StartsBlock l
  /-- 4.6: an HTML block. -/
  | html (r : Str) : l = '<' :: r → StartsBlock l
  /-- 4.7: a link reference definition. -/
  | linkDef (r : Str) : l = '[' :: r → StartsBlock l
  /-- 4.4: an indented code block. -/
  | code (c : Char) (r : Str) : l = c :: r → MdBlank c → StartsBlock l

/-- The lines of this kind that the code does not look for: two to six `#`, a lone bullet, a lone number, and `--` (an underline). -/
inductive Overlooked (l : Str) : Prop
  | heading (k : Nat) (r : Str) : l = List.replicate k '#' ++ r → 2 ≤ k → k ≤ 6 → AfterMarker r → Overlooked l
  | lone : l ∈ [c%"-", c%"--", c%"+"] → Overlooked l
  | number (ds : Str) (p : Char) : l = ds ++ [p] → (∀ c ∈ ds, isDigitC c = true) → 1 ≤ ds.length → ds.length ≤ 9 → p ∈ c%".)" → Overlooked l

end JH.Spec
