/-
Python `dict` as an insertion-ordered association list.
Used for every dictionary of the code base (component tables, optical components, collections).
-/
import Mathlib.Data.List.Basic

namespace Verif

/-- Insertion-ordered dictionary. Python's `dict` (>= 3.7) iterates in insertion order. -/
abbrev Dict (α β : Type*) := List (α × β)

namespace Dict
variable {α β γ : Type*} [DecidableEq α]

/-- `d.get(k)` / `d[k]` (`none` models the missing key). -/
def get? : Dict α β → α → Option β
  | [], _ => none
  | (k', v) :: d, k => if k' = k then some v else get? d k

/-- `d[k] = v` / `d.update({k: v})`: overwrite in place if the key exists, append otherwise. -/
def set : Dict α β → α → β → Dict α β
  | [], k, v => [(k, v)]
  | (k', v') :: d, k, v => if k' = k then (k', v) :: d else (k', v') :: set d k v

/-- `k in d`. -/
def has (d : Dict α β) (k : α) : Bool := (get? d k).isSome

/-- `list(d.keys())`. -/
def keys (d : Dict α β) : List α := d.map Prod.fst

/-- `list(d.values())`. -/
def values (d : Dict α β) : List β := d.map Prod.snd

/-- `{k: v for (k, v) in l}`: successive assignment into an empty dictionary. -/
def ofList (l : List (α × β)) : Dict α β := l.foldl (fun d kv => set d kv.1 kv.2) []

/-- `d.pop(k)` / `del d[k]` on an existing key (no effect otherwise). -/
def erase : Dict α β → α → Dict α β
  | [], _ => []
  | (k', v') :: d, k => if k' = k then d else (k', v') :: erase d k

end Dict
end Verif
