import Verif.Model.PyDict

/-!
# Looking variables up by name

Models `KeySet` (gpkit/keydict.py 50-116 and 282-297), lookup of variables in a constraint set (gpkit/constraints/set.py 125-160), and names in its
substitutions (gpkit/keydict.py 57-105 with `cset` set). Sets are lists; `ord` is the order in which a set is iterated.
-/

namespace Verif
namespace Lookup

/-- Keys of `keymap`. -/
inductive MapKey (A N : Type) where
  /-- a `VarKey` -/
  | key (a : A)
  /-- a string -/
  | str (n : N)
deriving DecidableEq

/-- The variables: attributes of `VarKey`. -/
structure Env (A N I : Type) where
  /-- `key.keys` (gpkit/varkey.py 40, 48-49) -/
  keys : A → List (MapKey A N)
  /-- `key.veckey` -/
  veckey : A → Option A
  /-- `key.idx` -/
  idx : A → Option I
  /-- iteration of a set -/
  ord : List A → List A

/-- Exceptions raised. -/
inductive LErr where
  /-- `KeyError` -/
  | keyError
  /-- `ValueError` -/
  | valueError
  /-- `AttributeError` -/
  | attributeError
deriving DecidableEq

/-- A `KeySet` (gpkit/keydict.py 50-55). -/
structure KeySet (A N : Type) where
  /-- its elements -/
  elems : List A
  /-- `keymap`, a defaultdict of sets -/
  keymap : PyDict (MapKey A N) (List A)
  /-- `_unmapped_keys` -/
  unmapped : List A

section
variable {A N I : Type} [DecidableEq A] [DecidableEq N]

/-- `set.add`. -/
def add (l : List A) (a : A) : List A := if a ∈ l then l else l ++ [a]

/-- `self.keymap[k].add(a)`. -/
def note (a : A) (km : PyDict (MapKey A N) (List A)) (k : MapKey A N) : PyDict (MapKey A N) (List A) := km.set k (add ((km.get? k).getD []) a)

/-- `KeySet(keys)` (gpkit/keydict.py 50-55 and 286-291). -/
def fresh (vks : List A) : KeySet A N :=
  ⟨vks, vks.foldl (fun km a => note a km (.key a)) [], vks⟩

/-- `update_keymap` (gpkit/keydict.py 107-116). -/
def updateKeymap (E : Env A N I) (s : KeySet A N) : KeySet A N :=
  { s with keymap := (E.ord s.unmapped).foldl (fun km a => (E.keys a).foldl (note a) km) s.keymap, unmapped := [] }

/-- `parse_and_index` without `cset` and without collapsing arrays (gpkit/keydict.py 57-66): names update the map. -/
def parse (E : Env A N I) (s : KeySet A N) : MapKey A N → KeySet A N
  | .key _ => s
  | .str _ => updateKeymap E s

/-- `varkeys[key]` (gpkit/keydict.py 293-296): a defaultdict, so that reading creates an entry. -/
def getItem (E : Env A N I) (s : KeySet A N) (k : MapKey A N) : KeySet A N × List A :=
  let s := parse E s k
  match s.keymap.get? k with
  | some l => (s, l)
  | none => ({ s with keymap := s.keymap.set k [] }, [])

/-- `key in varkeys` (gpkit/keydict.py 81-105). -/
def contains (E : Env A N I) (s : KeySet A N) (k : MapKey A N) : KeySet A N × Bool :=
  let s := parse E s k
  (s, (match k with | .key a => s.elems.contains a | .str _ => false) || s.keymap.contains k)

/-- What `m[key]` returns. -/
inductive Found (A I : Type) where
  /-- a variable -/
  | var (a : A)
  /-- an array with the key of a vector; the elements set, in order of setting; all others are NaN -/
  | array (v : A) (cells : List (Option I × A))
deriving DecidableEq

/-- `_choosevar` (gpkit/constraints/set.py 132-147). -/
def chooseVar (E : Env A N I) : List A → Except LErr (Found A I)
  | [] => .error .keyError
  | a :: l =>
    match E.veckey a with
    | none => if l = [] then .ok (.var a) else .error .valueError
    | some v =>
      if l.all (fun b => E.veckey b = some v) then .ok (.array v ((a :: l).map (fun b => (E.idx b, b))))
      else .error .valueError

/-- `m[key]` for a key that is no index or name of a constraint (gpkit/constraints/set.py 125-130 and 149-153). `sort` is `sorted` with the key of
lines 28-30. -/
def modelGet (E : Env A N I) (sort : List A → List A) (s : KeySet A N) (k : MapKey A N) : KeySet A N × Except LErr (Found A I) :=
  let r := getItem E s k
  (r.1, chooseVar E (sort (E.ord r.2)))

/-- The choice among the keys with a name (gpkit/keydict.py 70-79). -/
def subsChoose (E : Env A N I) : List A → Except LErr (Option A × Option I)
  | [] => .error .valueError
  | a :: l =>
    if l ≠ [] then
      if l.all (fun b => E.veckey b = E.veckey a) then .ok (E.veckey a, none) else .error .valueError
    else match E.idx a with
      | some i => .ok (E.veckey a, some i)
      | none => .ok (some a, none)

/-- `parse_and_index` of the substitutions of a constraint set, for a name (gpkit/keydict.py 67-79): the key, which may be `None`, and the index. -/
def subsParse (E : Env A N I) (s : KeySet A N) (n : N) : KeySet A N × Except LErr (Option A × Option I) :=
  let c := contains E s (.str n)
  if c.2 = false then (c.1, .error .keyError)
  else
    let r := getItem E c.1 (.str n)
    (r.1, subsChoose E (E.ord r.2))

/-- `name in m.substitutions` (gpkit/keydict.py 81-105): `has` tells for a key, and an index if it is an element, whether the dict has a value. -/
def subsContains (E : Env A N I) (has : A → Option I → Bool) (s : KeySet A N) (n : N) : KeySet A N × Bool :=
  let r := subsParse E s n
  (r.1, match r.2 with
    | .error .keyError => false
    | .error _ => true
    | .ok (none, _) => false
    | .ok (some a, i) => has a i)

/-- Uses of the varkeys of a model. -/
inductive Use (A N : Type) where
  /-- `m[key]` or `m.varkeys[key]` -/
  | get (k : MapKey A N)
  /-- `key in m.varkeys` -/
  | has (k : MapKey A N)
  /-- `m.substitutions[name]` and the like -/
  | subs (n : N)
  /-- `parse_subs`, on solving (gpkit/nomials/substitution.py 19) -/
  | solve

/-- The varkeys afterwards. -/
def use (E : Env A N I) (s : KeySet A N) : Use A N → KeySet A N
  | .get k => (getItem E s k).1
  | .has k => (contains E s k).1
  | .subs n => (subsParse E s n).1
  | .solve => updateKeymap E s

end
end Lookup
end Verif
