import Verif.Model.Py
/-! Specifications for C11, C52, C55. -/
namespace JH.Spec

/-- HTML white space. -/
def ws (c : Char) : Bool := c ∈ ['\t', '\n', '\x0c', '\r', ' ']

/-- The maximal runs of characters that are not white space, in order. -/
def words : Str → List Str
  | [] => []
  | c :: t =>
    if ws c then words t
    else match t with
      | [] => [[c]]
      | d :: _ =>
        if ws d then [c] :: words t
        else match words t with
          | w :: r => (c :: w) :: r
          | [] => [[c]]

/-- No two adjacent white space characters. -/
def NoAdjacentWs (s : Str) : Prop := ∀ a x y b, s = a ++ x :: y :: b → ¬ (ws x = true ∧ ws y = true)

/-- The code points documented as invisible: the Arabic letter mark, zero-width and bidi controls, variation selectors,
the byte order mark and private-use characters. -/
def Invisible (c : Char) : Prop :=
  let n := c.toNat
  n = 0x061C ∨ (0x200B ≤ n ∧ n ≤ 0x200F) ∨ (0x202A ≤ n ∧ n ≤ 0x202E) ∨ (0x2060 ≤ n ∧ n ≤ 0x2069) ∨
  (0xFE00 ≤ n ∧ n ≤ 0xFE0F) ∨ n = 0xFEFF ∨ (0xE000 ≤ n ∧ n ≤ 0xF8FF) ∨ (0xE0100 ≤ n ∧ n ≤ 0xE01EF) ∨
  (0xF0000 ≤ n ∧ n ≤ 0xFFFFD) ∨ (0x100000 ≤ n ∧ n ≤ 0x10FFFD)

/-- Value of a hexadecimal digit. -/
def hexVal? (c : Char) : Option Nat :=
  if '0' ≤ c ∧ c ≤ '9' then some (c.toNat - 48)
  else if 'A' ≤ c ∧ c ≤ 'F' then some (c.toNat - 55)
  else if 'a' ≤ c ∧ c ≤ 'f' then some (c.toNat - 87)
  else none

/-- Percent-decoding (RFC 3986) of an ASCII string to bytes; `none` when malformed. -/
def percentDecode : Str → Option (List Nat)
  | [] => some []
  | '%' :: a :: b :: r =>
    match hexVal? a, hexVal? b, percentDecode r with
    | some x, some y, some bs => some ((16 * x + y) :: bs)
    | _, _, _ => none
  | c :: r => if c = '%' ∨ 128 ≤ c.toNat then none else (percentDecode r).map (c.toNat :: ·)

/-- UTF-8 decoding (RFC 3629), one sequence at a time; `none` when malformed. -/
def utf8Decode : List Nat → Option Str
  | [] => some []
  | b0 :: r =>
    if b0 < 0x80 then (utf8Decode r).map (Char.ofNat b0 :: ·)
    else if 0xC2 ≤ b0 ∧ b0 < 0xE0 then
      match r with
      | b1 :: r => if 0x80 ≤ b1 ∧ b1 < 0xC0 then (utf8Decode r).map (Char.ofNat ((b0 - 0xC0) * 64 + (b1 - 0x80)) :: ·) else none
      | _ => none
    else if 0xE0 ≤ b0 ∧ b0 < 0xF0 then
      match r with
      | b1 :: b2 :: r =>
        if 0x80 ≤ b1 ∧ b1 < 0xC0 ∧ 0x80 ≤ b2 ∧ b2 < 0xC0 then
          (utf8Decode r).map (Char.ofNat ((b0 - 0xE0) * 4096 + (b1 - 0x80) * 64 + (b2 - 0x80)) :: ·) else none
      | _ => none
    else if 0xF0 ≤ b0 ∧ b0 < 0xF5 then
      match r with
      | b1 :: b2 :: b3 :: r =>
        if 0x80 ≤ b1 ∧ b1 < 0xC0 ∧ 0x80 ≤ b2 ∧ b2 < 0xC0 ∧ 0x80 ≤ b3 ∧ b3 < 0xC0 then
          (utf8Decode r).map (Char.ofNat ((b0 - 0xF0) * 262144 + (b1 - 0x80) * 4096 + (b2 - 0x80) * 64 + (b3 - 0x80)) :: ·)
        else none
      | _ => none
    else none

end JH.Spec
