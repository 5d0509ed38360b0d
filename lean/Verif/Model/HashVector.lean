import Verif.Model.Nomial

/-!
# The cached hash of exponent vectors

Models the hashing side of `HashVector` (gpkit/small_classes.py 152-226): `hashvalue` is computed on demand, copied with
the vector, dropped by additions, and updated in place by differentiation and substitution (gpkit/nomials/map.py 66-83, 168-191).
Hashes are 64-bit words combined with xor; the hash of an item `(key, exponent)` is an arbitrary function.
-/

namespace Verif

/-- A `HashVector` object with its `hashvalue` attribute. -/
structure HVObj (V K : Type) where
  /-- the items -/
  items : PyDict V K
  /-- `hashvalue` -/
  cached : Option (BitVec 64)

namespace HVObj
variable {V K : Type} [DecidableEq V] [Field K] [DecidableEq K] (hsh : V × K → BitVec 64)

/-- `reduce(xor, map(hash, self.items()), 0)` (gpkit/small_classes.py 172). -/
def itemHash (items : PyDict V K) : BitVec 64 := (items.map hsh).foldl (· ^^^ ·) 0#64

/-- `HashVector.__hash__` (gpkit/small_classes.py 169-173): the value, and the object with its cache filled. -/
def hash (a : HVObj V K) : BitVec 64 × HVObj V K :=
  match a.cached with
  | some h => (h, a)
  | none => (itemHash hsh a.items, { a with cached := some (itemHash hsh a.items) })

/-- `HashVector.copy` (gpkit/small_classes.py 175-179). -/
def copy (a : HVObj V K) : HVObj V K := ⟨a.items, a.cached⟩

/-- `HashVector.__add__` (gpkit/small_classes.py 197-217): works on a copy and drops its cache. -/
def add (a b : HVObj V K) : HVObj V K := { a.copy with items := dictAdd a.items b.items, cached := none }

/-- `HashVector.__mul__` (gpkit/small_classes.py 187-195): a new object. -/
def scale (a : HVObj V K) (c : K) : HVObj V K := ⟨dictScale a.items c, none⟩

/-- The exponent of a derivative (gpkit/nomials/map.py 72-81): a copy, changed in place. `x ^= ...` on a missing hash raises TypeError. -/
def diff (a : HVObj V K) (v : V) : Except Err (HVObj V K) :=
  match a.items.get? v with
  | none => .error .keyError
  | some x =>
    match a.copy.cached with
    | none => .error .typeError
    | some h =>
      if x = 1 then .ok ⟨a.items.del v, some (h ^^^ hsh (v, 1))⟩
      else .ok ⟨a.items.set v (x - 1), some (h ^^^ (hsh (v, x) ^^^ hsh (v, x - 1)))⟩

/-- Removal of a substituted variable (gpkit/nomials/map.py 175-176 and 190-191), in place. -/
def strip (a : HVObj V K) (v : V) : Except Err (HVObj V K) :=
  match a.items.get? v with
  | none => .error .keyError
  | some x =>
    match a.cached with
    | none => .error .typeError
    | some h => .ok ⟨a.items.del v, some (h ^^^ hsh (v, x))⟩

/-- Exponent vectors that a program can come to hold. -/
inductive Reach : HVObj V K → Prop where
  /-- a new vector from a dict (no cache yet), e.g. gpkit/nomials/math.py 50 -/
  | new (items : PyDict V K) (h : items.WF) : Reach ⟨items, none⟩
  /-- filling the cache -/
  | hash {a} : Reach a → Reach (a.hash hsh).2
  /-- copying -/
  | copy {a} : Reach a → Reach a.copy
  /-- adding -/
  | add {a b} : Reach a → Reach b → Reach (a.add b)
  /-- scaling -/
  | scale {a} (c : K) : Reach a → Reach (a.scale c)
  /-- differentiating -/
  | diff {a b} (v : V) : Reach a → a.diff hsh v = .ok b → Reach b
  /-- substituting -/
  | strip {a b} (v : V) : Reach a → a.strip hsh v = .ok b → Reach b

end HVObj
end Verif
