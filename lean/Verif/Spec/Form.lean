import Verif.Spec.Url
import Verif.Spec.TextOps
import Verif.Model.TextOps
/-! How a server reads the query of a URL (WHATWG `application/x-www-form-urlencoded` parsing). Used by C108. -/
namespace JH.Spec

/-- The bytes of one name or value: `+` is a space, a valid `%` escape is its byte, everything else is itself in UTF-8. -/
def formBytes : Str → List Nat
  | [] => []
  | '%' :: a :: b :: r =>
    match hexVal? a, hexVal? b with
    | some x, some y => (16 * x + y) :: formBytes r
    | _, _ => 0x25 :: formBytes (a :: b :: r)
  | c :: r => (if c = '+' then [0x20] else utf8 c) ++ formBytes r

/-- A decoder of bytes that may replace malformed input in any way but is right about well-formed UTF-8. -/
def Decoder (dec : List Nat → Str) : Prop := ∀ bytes text, utf8Decode bytes = some text → dec bytes = text

/-- The parameters of the query of `url`: the non-empty pieces between `&`s, each split at its first `=`, decoded. -/
def formPairs (dec : List Nat → Str) (url : Str) : List (Str × Str) :=
  let query := ((url.takeWhile (· ≠ '#')).dropWhile (· ≠ '?')).drop 1
  ((splitC '&' query).filter fun piece => !piece.isEmpty).map fun piece =>
    (dec (formBytes (partitionC '=' piece).1), dec (formBytes (partitionC '=' piece).2.2))

/-- The reference starts with text before a `:` (ahead of any `/`, `?`, `#`) that is not a URL scheme, such as `1x:` or `a b:`. -/
def OddPrefix (v : Str) : Prop :=
  ∃ a b, v = a ++ ':' :: b ∧ a ≠ [] ∧ (∀ c ∈ a, c ≠ ':' ∧ c ≠ '/' ∧ c ≠ '?' ∧ c ≠ '#') ∧ splitScheme v = none

end JH.Spec
