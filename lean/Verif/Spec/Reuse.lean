import Verif.Model.Reuse
/-! Specification for C101. -/
namespace JH.Spec

/-- The sanitizing calls of a history, each with the field values that the policy has at that moment. -/
def calls : SanCfg → List PolOp → List (SanCfg × Node)
  | _, [] => []
  | C, .edit e :: ops => calls (C.edit e) ops
  | C, .sanitize n :: ops => (C, n) :: calls C ops

/-- A name as the documentation asks for: in lower case, not empty, without white space around it. -/
def PlainName (U : Uni) (x : Str) : Prop := stripP U.isSpace x = x ∧ U.lower x = x ∧ x ≠ []

/-- Field values as the documentation asks for: plain names, and a list of CSS properties if `style` is allowed. The names of CSS properties
may have any case. -/
structure TidyFields (U : Uni) (C : SanCfg) : Prop where
  tags : ∀ t ∈ C.allowedTags, PlainName U t
  keys : (C.allowedAttrs.map Prod.fst).Nodup
  attrs : ∀ p ∈ C.allowedAttrs, PlainName U p.1 ∧ ∀ a ∈ p.2, PlainName U a
  drop : ∀ t ∈ C.dropContent, PlainName U t
  rel : ∀ t ∈ C.forceRel, PlainName U t
  css : ∀ x ∈ C.cssProps, U.lower (stripP U.isSpace (U.lower x)) = U.lower (stripP U.isSpace x)
  style : (∃ p ∈ C.allowedAttrs, c%"style" ∈ p.2) → C.cssProps ≠ []

/-- A configuration that allows no more than `C`, up to the case of names: the same elements, the same URL policy, and only attribute names
that `C` lists for the same element (or `rel` on links). -/
structure NoMore (U : Uni) (C' C : SanCfg) : Prop where
  tags : C'.allowedTags = C.allowedTags
  url : C'.url = C.url
  comments : C'.dropComments = C.dropComments
  doctype : C'.dropDoctype = C.dropDoctype
  attrs : ∀ k s a, (k, s) ∈ C'.allowedAttrs → a ∈ s → (k = c%"a" ∧ a = U.lower c%"rel") ∨
    ∃ k' s' a', (k', s') ∈ C.allowedAttrs ∧ a' ∈ s' ∧ U.lower k' = U.lower k ∧ U.lower a' = a

end JH.Spec
