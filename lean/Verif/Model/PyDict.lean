/-!
# Python dicts

CPython dicts (3.7 and later) iterate in insertion order. Writing to a key that is already present keeps the
position and the old key object; deleting and writing again moves the key to the end. `/repo` relies on all of
this, for example in gpkit/nomials/map.py lines 155-163 (`list(self.keys())` gives positions of terms) and
gpkit/nomials/math.py lines 461-462.

A dict is modelled as the list of its items in iteration order. Key equality is the `==` of the key type: for
`HashVector` keys it is equality of mappings, which is coarser than equality of lists of items.
-/

namespace Verif

/-- A Python dict: its items in iteration order. -/
abbrev PyDict (α β : Type _) := List (α × β)

namespace PyDict

variable {α β : Type _} [BEq α]

/-- `d.get(k)`. -/
def get? : PyDict α β → α → Option β
  | [], _ => none
  | (k, v) :: d, q => if k == q then some v else get? d q

/-- `k in d`. -/
def contains (d : PyDict α β) (k : α) : Bool := (get? d k).isSome

/-- `d[k] = v`: an existing key keeps its place and its key object, a new key goes to the end. -/
def set : PyDict α β → α → β → PyDict α β
  | [], k, v => [(k, v)]
  | (k', v') :: d, k, v => if k' == k then (k', v) :: d else (k', v') :: set d k v

/-- `del d[k]` (no effect if absent: the callers that are modelled test for presence first). -/
def del : PyDict α β → α → PyDict α β
  | [], _ => []
  | (k', v') :: d, k => if k' == k then d else (k', v') :: del d k

/-- `list(d.keys())`. -/
def keys (d : PyDict α β) : List α := d.map (·.1)

/-- `list(d.values())`. -/
def values (d : PyDict α β) : List β := d.map (·.2)

/-- No key occurs twice: true of every Python dict. -/
def WF (d : PyDict α β) : Prop := d.Pairwise (fun a b => (a.1 == b.1) = false)

end PyDict
end Verif
