import Verif.Model.Nomial

/-!
# Nested dicts of lists

`DictOfLists` (gpkit/small_classes.py 84-150).

Simplifications: leaves are numbers or vectors of numbers, and vectors at the same place have equal length, so that `np.array` makes a row of
each; the inner dicts are plain dicts, though in solutions they are often `KeyDict`s.
-/

namespace Verif
namespace DoL

/-- A dict of dicts, with anything at the bottom. -/
inductive Nest (S α : Type) where
  /-- what is not a dict -/
  | leaf (a : α)
  /-- a dict -/
  | dict (items : List (S × Nest S α))

/-- A value in a result. -/
inductive Leaf (K : Type) where
  /-- a number, which cannot be indexed -/
  | num (k : K)
  /-- an array -/
  | vec (ks : List K)
deriving DecidableEq, Repr

/-- What `to_arrays` makes of a list. -/
inductive Arr (K : Type) where
  /-- the only element -/
  | one (a : Leaf K)
  /-- an array with one row for each element -/
  | many (as : List (Leaf K))
deriving DecidableEq, Repr

/-- What `atindex` gives. -/
inductive Got (K : Type) where
  /-- an element -/
  | val (a : Leaf K)
  /-- everything, after an exception -/
  | whole (as : List (Leaf K))
deriving DecidableEq, Repr

section
variable {S K α : Type} [DecidableEq S]

mutual
/-- `_enlist_dict` (gpkit/small_classes.py 104-112). -/
def enlist : Nest S α → Nest S (List α)
  | .leaf a => .leaf [a]
  | .dict d => .dict (enlistItems d)
/-- The loop of `_enlist_dict`. -/
def enlistItems : List (S × Nest S α) → List (S × Nest S (List α))
  | [] => []
  | (k, v) :: d => (k, enlist v) :: enlistItems d
end

mutual
/-- `_append_dict` (gpkit/small_classes.py 115-122) for one item. -/
def app : Nest S α → Nest S (List α) → Except Err (Nest S (List α))
  | .leaf a, .leaf l => .ok (.leaf (l ++ [a]))
  | .leaf _, .dict _ => .error .attributeError
  | .dict d, .dict o => (appItems d o).map .dict
  | .dict [], .leaf l => .ok (.leaf l)
  | .dict _, .leaf _ => .error .typeError
/-- The loop of `_append_dict`. -/
def appItems : List (S × Nest S α) → PyDict S (Nest S (List α)) → Except Err (PyDict S (Nest S (List α)))
  | [], o => .ok o
  | (k, v) :: d, o =>
    match o.get? k with
    | none => .error .keyError
    | some w =>
      match app v w with
      | .ok w => appItems d (o.set k w)
      | .error e => .error e
end

/-- `_enray` (gpkit/small_classes.py 137-148) of a list. -/
def enrayLeaf (l : List (Leaf K)) : Arr K :=
  match l with
  | [a] => .one a
  | l => .many l

/-- `v[idx]` and its exceptions (gpkit/small_classes.py 130-133). -/
def indexLeaf (i : Nat) : Arr K → Got K
  | .one (.num k) => .val (.num k)
  | .one (.vec ks) => match ks[i]? with | some k => .val (.num k) | none => .val (.vec ks)
  | .many as => match as[i]? with | some a => .val a | none => .whole as

mutual
/-- A function at all leaves: the recursion of `_enray` and `_index_dict` (gpkit/small_classes.py 125-148). -/
def mapLeaves {β : Type} (f : α → β) : Nest S α → Nest S β
  | .leaf a => .leaf (f a)
  | .dict d => .dict (mapItems f d)
/-- Its loop. -/
def mapItems {β : Type} (f : α → β) : List (S × Nest S α) → List (S × Nest S β)
  | [] => []
  | (k, v) :: d => (k, mapLeaves f v) :: mapItems f d
end

/-- `append` for each result in turn (gpkit/small_classes.py 87-93). -/
def appendAll : List (Nest S α) → Except Err (Nest S (List α))
  | [] => .ok (.dict [])
  | r :: rs => rs.foldlM (fun o r => app r o) (enlist r)

/-- `to_arrays` (gpkit/small_classes.py 99-101). -/
def toArrays (d : Nest S (List (Leaf K))) : Nest S (Arr K) := mapLeaves enrayLeaf d

/-- `atindex` (gpkit/small_classes.py 95-97). -/
def atindex (i : Nat) (d : Nest S (Arr K)) : Nest S (Got K) := mapLeaves (indexLeaf i) d

end

end DoL
end Verif
