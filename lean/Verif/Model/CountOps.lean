import Verif.Model.Sharing

/-!
# `count_cached_ops` (`opt_einsum/sharing.py:84-88`)
-/

namespace OE.Share
open OE OE.Py

/-- `key[0]` (sharing.py:97, 126, 150, 180, 202, 213). -/
def kindOf : Key → Str
  | .tensor _ => S "tensor"
  | .transpose _ _ _ => S "transpose"
  | .tensordot _ _ _ _ => S "tensordot"
  | .einsum _ _ _ => S "einsum"
  | .convert name _ _ => name

/-- `Counter(iterable)` of the standard library: one is added for every element, a missing one counts as zero. -/
def counter {κ : Type} [DecidableEq κ] (l : List κ) : Dict κ Nat := l.foldl (fun d k => d.set k ((d.get? k).getD 0 + 1)) []

/-- `count_cached_ops` (sharing.py:84-88). -/
def countCachedOps (cache : Cache) : Dict Str Nat := counter (cache.keys.map kindOf)

end OE.Share
