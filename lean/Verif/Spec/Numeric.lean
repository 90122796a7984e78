import Verif.Model.Py
/-! WHATWG "numeric character reference end state" (HTML standard 13.2.5.80), written
independently of the model: the code point denoted by a digit string and the character it yields. -/
namespace JH.Spec

/-- Value of one hexadecimal digit, read off the ASCII table. -/
def digitVal (c : Char) : Nat :=
  let n := c.toNat
  if n < 58 then n - 48 else if n < 71 then n - 55 else n - 87

/-- The (unbounded) number written by a digit string in the given base. -/
def number (base : Nat) (ds : Str) : Nat := ds.foldl (fun a c => a * base + digitVal c) 0

/-- The characters of the windows-1252 block that replace 0x80–0x9F
(0x81, 0x8D, 0x8F, 0x90, 0x9D stay as they are). -/
def c1 : List Nat :=
  [0x20AC, 0x81, 0x201A, 0x0192, 0x201E, 0x2026, 0x2020, 0x2021, 0x02C6, 0x2030, 0x0160, 0x2039, 0x0152, 0x8D,
   0x017D, 0x8F, 0x90, 0x2018, 0x2019, 0x201C, 0x201D, 0x2022, 0x2013, 0x2014, 0x02DC, 0x2122, 0x0161, 0x203A,
   0x0153, 0x9D, 0x017E, 0x0178]

/-- The code point a numeric reference with value `n` denotes. -/
def numericChar (n : Nat) : Nat :=
  if n = 0 ∨ n > 0x10FFFF ∨ (0xD800 ≤ n ∧ n ≤ 0xDFFF) then 0xFFFD
  else if 0x80 ≤ n ∧ n ≤ 0x9F then c1.getD (n - 0x80) 0
  else n

end JH.Spec
