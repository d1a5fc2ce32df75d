import Verif.Py.Basic

/-!
# The rule for libraries without einsum (docs/getting_started/backends.md)
-/

namespace OE.Spec
open OE

/-- "In the full expression (including output indices) each index must appear twice": in two different terms, that is. -/
structure TwiceEach (terms : List Str) (output : Str) : Prop where
  twice : ∀ c ∈ terms.flatten, (terms.flatten ++ output).count c = 2
  nodup : ∀ t ∈ terms, t.Nodup

end OE.Spec
