import Mathlib.Data.List.Basic
import Mathlib.Algebra.BigOperators.Group.List.Basic
import Mathlib.Data.Real.Basic

/-!
# Python dictionaries as association lists

Insertion-ordered, string-keyed dictionaries, as used throughout
`hazma/theory/__init__.py`.
-/

namespace Hazma

/-- A Python `dict` with string keys, in insertion order. -/
abbrev Dict (β : Type) := List (String × β)

namespace Dict

variable {β γ : Type}

/-- `d.keys()`. -/
def keys (d : Dict β) : List String := d.map Prod.fst

/-- `d.values()`. -/
def values (d : Dict β) : List β := d.map Prod.snd

/-- `d.get(k)`; `d[k]` raises `KeyError` when this is `none`. -/
def get? : Dict β → String → Option β
  | [], _ => none
  | (k, v) :: d, key => if k = key then some v else get? d key

/-- `d[k] = v`: overwrite in place, or append at the end. -/
def set : Dict β → String → β → Dict β
  | [], key, v => [(key, v)]
  | (k, w) :: d, key, v => if k = key then (k, v) :: d else (k, w) :: set d key v

/-- `{k: f(k, v) for k, v in d.items()}`. -/
def mapVals (f : String → β → γ) (d : Dict β) : Dict γ := d.map fun kv => (kv.1, f kv.1 kv.2)

/-- `{k: v for k, v in d.items() if k != key}`. -/
def erase (key : String) (d : Dict β) : Dict β := d.filter fun kv => kv.1 ≠ key

end Dict

end Hazma
