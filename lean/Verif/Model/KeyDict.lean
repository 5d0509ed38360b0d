import Verif.Model.Nomial

/-!
# KeyDict

Models `KeyDict` (gpkit/keydict.py 25-279) with `cset` unset: storage of vectors as arrays on a heap, copy on write, and the index of
names.

Simplifications: indices of arrays are flat; `clean_value` (unit conversion, see `Quantities`) happens before; a vector element is only given a single
value; exceptions inside numpy leave arrays unchanged. The sets in `keymap` are values here: a set that two dicts share is always copied
before it is changed (lines 112-114 and 276-278).
-/

namespace Verif
namespace KD

/-- A single value: NaN, a number, a function, or `("sweep", values)`. -/
inductive Cell (K F : Type) where
  /-- `nan` -/
  | nan
  /-- a number -/
  | num (k : K)
  /-- a linked function -/
  | fn (f : F)
  /-- a sweep -/
  | sweep (f : F)
deriving DecidableEq, Repr

/-- The element types of arrays that occur. -/
inductive DType where
  /-- single precision -/
  | f32
  /-- double precision -/
  | f64
  /-- integers -/
  | int
  /-- Python objects -/
  | obj
deriving DecidableEq, Repr

/-- A numpy array. -/
structure Arr (K F : Type) where
  /-- its element type -/
  dtype : DType
  /-- its elements -/
  cells : List (Cell K F)
deriving DecidableEq, Repr

/-- What a dict stores: a single value, or a reference to an array. -/
inductive Val (K F : Type) where
  /-- a single value -/
  | cell (c : Cell K F)
  /-- an array -/
  | arr (r : Nat)
deriving DecidableEq, Repr

/-- A key of `keymap`: a `VarKey` (a scalar or a whole vector), or a string. -/
inductive Obj (S N : Type) where
  /-- a `VarKey` without index -/
  | var (s : S)
  /-- a string -/
  | str (n : N)
deriving DecidableEq, Repr

/-- A key the user writes: a scalar or whole vector, an element of a vector, or a string. -/
inductive Key (S N : Type) where
  /-- a scalar variable or a whole vector -/
  | whole (s : S)
  /-- an element of a vector -/
  | elem (s : S) (i : Nat)
  /-- a string -/
  | str (n : N)
deriving DecidableEq, Repr

/-- A value the user writes: a single value, an array that exists already, or a list (`ints`: of Python integers only). -/
inductive In (K F : Type) where
  /-- a single value -/
  | one (c : Cell K F)
  /-- an array -/
  | arr (r : Nat)
  /-- a list -/
  | list (cs : List (Cell K F)) (ints : Bool)
deriving DecidableEq, Repr

/-- A `KeyDict` (gpkit/keydict.py 50-55). -/
structure Dict (S N K F : Type) where
  /-- the items of the underlying dict -/
  store : PyDict S (Val K F)
  /-- `keymap` -/
  keymap : PyDict (Obj S N) (List (Obj S N))
  /-- `_unmapped_keys` -/
  unmapped : List (Obj S N)
  /-- `owned` -/
  owned : List S
deriving DecidableEq, Repr

/-- All arrays. A reference is a position. -/
abbrev Heap (K F : Type) := List (Arr K F)

/-- The variables: `shape` (as the number of elements) and the strings among `keys` of each, and rounding in arrays. -/
structure Env (S N K : Type) where
  /-- number of elements of a vector -/
  shape : S → Option Nat
  /-- `key.keys` -/
  names : S → List N
  /-- conversion of a number to single precision -/
  r32 : K → K
  /-- conversion of a number to an integer -/
  trunc : K → K

section
variable {S N K F : Type} [DecidableEq S] [DecidableEq N]

/-- `KeyDict()` (gpkit/keydict.py 50-55). -/
def empty : Dict S N K F := ⟨[], [], [], []⟩

/-- `set.add`. -/
def add {α : Type} [DecidableEq α] (l : List α) (a : α) : List α := if a ∈ l then l else l ++ [a]

/-- A single value is stored in an array of a given type (numpy). -/
def cast (E : Env S N K) : DType → Cell K F → Except Err (Cell K F)
  | .obj, c => .ok c
  | .f64, .nan => .ok .nan
  | .f64, .num k => .ok (.num k)
  | .f64, _ => .error .typeError
  | .f32, .nan => .ok .nan
  | .f32, .num k => .ok (.num (E.r32 k))
  | .f32, _ => .error .typeError
  | .int, .num k => .ok (.num (E.trunc k))
  | .int, .nan => .error .valueError
  | .int, _ => .error .typeError

/-- A dict, the arrays, and how a statement ended. -/
structure St (S N K F : Type) where
  /-- the arrays -/
  heap : Heap K F
  /-- the dict -/
  dict : Dict S N K F
deriving DecidableEq, Repr

/-- Result of a statement: the state afterwards and the exception or value. -/
abbrev Res (S N K F α : Type) := St S N K F × Except Err α

/-- Sequencing. -/
def Res.bind {α β : Type} (x : Res S N K F α) (f : St S N K F → α → Res S N K F β) : Res S N K F β :=
  match x with
  | (s, .ok a) => f s a
  | (s, .error e) => (s, .error e)

/-- One pass of the loop of `update_keymap` (gpkit/keydict.py 110-115) over a key. -/
def mapNames (E : Env S N K) (km : PyDict (Obj S N) (List (Obj S N))) (s : S) : PyDict (Obj S N) (List (Obj S N)) :=
  (E.names s).foldl (fun km n => km.set (.str n) (add ((km.get? (.str n)).getD []) (.var s))) km

/-- `update_keymap` (gpkit/keydict.py 107-116). A string among the unmapped keys has no `keys`. -/
def updateKeymap (E : Env S N K) (s : St S N K F) : Res S N K F Unit :=
  if s.dict.unmapped.any (fun o => match o with | .str _ => true | .var _ => false) then (s, .error .attributeError)
  else
    let km := s.dict.unmapped.foldl (fun km o => match o with | .str _ => km | .var v => mapNames E km v) s.dict.keymap
    ({ s with dict := { s.dict with keymap := km, unmapped := [] } }, .ok ())

/-- A new array, stored under a key which is then owned. -/
def putNew (s : St S N K F) (k : S) (a : Arr K F) : St S N K F :=
  ⟨s.heap ++ [a], { s.dict with store := s.dict.store.set k (.arr s.heap.length), owned := add s.dict.owned k }⟩

/-- `_copyonwrite` (gpkit/keydict.py 140-146). -/
def copyOnWrite (s : St S N K F) (k : S) : Res S N K F Unit :=
  if k ∈ s.dict.owned then (s, .ok ())
  else
    match s.dict.store.get? k with
    | none => (s, .error .keyError)
    | some (.cell _) => (s, .error .attributeError)
    | some (.arr r) =>
      match s.heap[r]? with
      | none => (s, .error .notModelled)
      | some a => (putNew s k a, .ok ())

/-- `arr[idx] = value`. -/
def setCell (E : Env S N K) (s : St S N K F) (k : S) (i : Nat) (c : Cell K F) : Res S N K F Unit :=
  match s.dict.store.get? k with
  | none => (s, .error .keyError)
  | some (.cell _) => (s, .error .typeError)
  | some (.arr r) =>
    match s.heap[r]? with
    | none => (s, .error .notModelled)
    | some a =>
      if i < a.cells.length then
        match cast E a.dtype c with
        | .error e => (s, .error e)
        | .ok c => ({ s with heap := s.heap.set r { a with cells := a.cells.set i c } }, .ok ())
      else (s, .error .indexError)

/-- `super().__setitem__(key, np.array(old, "object"))`; the result is owned in both places that do this (gpkit/keydict.py 216-223). -/
def toObject (s : St S N K F) (k : S) : Res S N K F Unit :=
  match s.dict.store.get? k with
  | none => (s, .error .keyError)
  | some (.cell _) => (s, .error .typeError)
  | some (.arr r) =>
    match s.heap[r]? with
    | none => (s, .error .notModelled)
    | some a => (putNew s k { a with dtype := .obj }, .ok ())

/-- Writing an element whose array exists (gpkit/keydict.py 215-225). -/
def setElem (E : Env S N K) (s : St S N K F) (k : S) (i : Nat) (c : Cell K F) : Res S N K F Unit :=
  let s1 : Res S N K F Unit := match c with
    | .sweep _ => toObject s k
    | _ => (s, .ok ())
  let s2 := s1.bind (fun s _ => copyOnWrite s k)
  let s3 := s2.bind (fun s _ => match c with
    | .fn _ => toObject s k
    | _ => (s, .ok ()))
  s3.bind (fun s _ => setCell E s k i c)

/-- `old[goodvals] = value[goodvals]` (gpkit/keydict.py 238-239). -/
def merge (old new : List (Cell K F)) : List (Cell K F) :=
  List.zipWith (fun o v => match v with | .nan => o | _ => v) old new

/-- The cells of a list, converted one by one. -/
def castAll (E : Env S N K) (d : DType) (cs : List (Cell K F)) : Except Err (List (Cell K F)) := cs.mapM (cast E d)

/-- Writing an array to a vector that has a value (gpkit/keydict.py 230-240). -/
def setOver (E : Env S N K) (s : St S N K F) (k : S) (a : Arr K F) : Res S N K F Unit :=
  match s.dict.store.get? k with
  | none => (s, .error .keyError)
  | some (.cell _) => (s, .error .attributeError)
  | some (.arr r) =>
    match s.heap[r]? with
    | none => (s, .error .notModelled)
    | some old =>
      let s1 : Res S N K F Unit :=
        if old.dtype = a.dtype then (s, .ok ())
        else
          match castAll E a.dtype old.cells with
          | .error e => (s, .error e)
          | .ok cs => (putNew s k ⟨a.dtype, cs⟩, .ok ())
      (s1.bind (fun s _ => copyOnWrite s k)).bind (fun s _ =>
        match s.dict.store.get? k with
        | some (.arr r) =>
          match s.heap[r]? with
          | some old =>
            if old.cells.length = a.cells.length then
              ({ s with heap := s.heap.set r { old with cells := merge old.cells a.cells } }, .ok ())
            else (s, .error .indexError)
          | none => (s, .error .notModelled)
        | _ => (s, .error .notModelled))

/-- `super().__setitem__(key, value); self.owned.add(key)` (gpkit/keydict.py 246-247). -/
def put (s : St S N K F) (k : S) (v : Val K F) : St S N K F :=
  { s with dict := { s.dict with store := s.dict.store.set k v, owned := add s.dict.owned k } }

/-- `np.array(value, "f")` on one element of an integer array. -/
def roundCell (E : Env S N K) : Cell K F → Cell K F
  | .num x => .num (E.r32 x)
  | .nan => .nan
  | .fn f => .fn f
  | .sweep f => .sweep f

/-- Writing a whole vector (gpkit/keydict.py 226-247). -/
def setVec (E : Env S N K) (s : St S N K F) (k : S) (n : Nat) : In K F → Res S N K F Unit
  | .arr r =>
    match s.heap[r]? with
    | none => (s, .error .notModelled)
    | some a =>
      if a.dtype = .int then
        let cs := a.cells.map (roundCell E)
        if s.dict.store.contains k then setOver E s k ⟨.f32, cs⟩ else (putNew s k ⟨.f32, cs⟩, .ok ())
      else if s.dict.store.contains k then setOver E s k a
      else (put s k (.arr r), .ok ())
  | .one (.sweep f) => (put s k (.cell (.sweep f)), .ok ())
  | .one (.fn _) => (s, .error .typeError)
  | .one .nan => (putNew s k ⟨.f32, List.replicate n .nan⟩, .ok ())
  | .one (.num x) => (putNew s k ⟨.f32, List.replicate n (.num (E.r32 x))⟩, .ok ())
  | .list cs ints =>
    let isNum := cs.all (fun c => match c with | .num _ => true | .nan => true | _ => false)
    (putNew s k ⟨if ints then .int else if isNum then .f64 else .obj, cs⟩, .ok ())

/-- The index entry of a new key, and the array for a new element (gpkit/keydict.py 204-214). -/
def enter (s : St S N K F) (E : Env S N K) (k : S) (elem : Bool) (v : In K F) : St S N K F :=
  if s.dict.keymap.contains (.var k) then s
  else
    let s : St S N K F := { s with dict := { s.dict with
      keymap := s.dict.keymap.set (.var k) [.var k], unmapped := add s.dict.unmapped (.var k) } }
    if elem then
      let isNum := match v with | .one (.num _) => true | .one .nan => true | _ => false
      putNew s k ⟨if isNum then .f64 else .obj, List.replicate ((E.shape k).getD 0) .nan⟩
    else s

/-- `kd[key] = value` (gpkit/keydict.py 187-247). A string cannot be a new key: it has no `shape`. -/
def setItem (E : Env S N K) (s : St S N K F) (key : Key S N) (v : In K F) : Res S N K F Unit :=
  match key with
  | .str n =>
    (updateKeymap E s).bind (fun s _ =>
      if s.dict.keymap.contains (.str n) then (s, .error .attributeError)
      else
        ({ s with dict := { s.dict with keymap := s.dict.keymap.set (.str n) [.str n], unmapped := add s.dict.unmapped (.str n) } },
          .error .attributeError))
  | .elem k i =>
    let s := enter s E k true v
    match v with
    | .one c => setElem E s k i c
    | _ => (s, .error .notModelled)
  | .whole k =>
    let s := enter s E k false v
    match E.shape k with
    | some n => setVec E s k n v
    | none =>
      match v with
      | .one c => (put s k (.cell c), .ok ())
      | .arr r => (put s k (.arr r), .ok ())
      | .list cs _ => (putNew s k ⟨.obj, cs⟩, .ok ())

/-- What reading gives: a value of one key, or a dict. -/
inductive Got (S K F : Type) where
  /-- a single value -/
  | one (v : Val K F)
  /-- a dict of values -/
  | many (l : List (S × Val K F))
deriving DecidableEq, Repr

/-- Reading one stored key (gpkit/keydict.py 176-181). -/
def readKey (E : Env S N K) (s : St S N K F) (idx : Option Nat) (o : Obj S N) : Res S N K F (S × Val K F) :=
  match o with
  | .str _ => (s, .error .attributeError)
  | .var k =>
    let s1 : Res S N K F Unit := if idx.isNone ∧ (E.shape k).isSome then copyOnWrite s k else (s, .ok ())
    s1.bind (fun s _ =>
      match s.dict.store.get? k with
      | none => (s, .error .keyError)
      | some v =>
        match idx with
        | none => (s, .ok (k, v))
        | some i =>
          match v with
          | .cell _ => (s, .error .typeError)
          | .arr r =>
            match s.heap[r]? with
            | none => (s, .error .notModelled)
            | some a =>
              match a.cells[i]? with
              | none => (s, .error .indexError)
              | some c => (s, .ok (k, .cell c)))

/-- Reading several stored keys in turn (gpkit/keydict.py 176-185). -/
def readKeys (E : Env S N K) (idx : Option Nat) : St S N K F → List (Obj S N) → Res S N K F (List (S × Val K F))
  | s, [] => (s, .ok [])
  | s, o :: os => (readKey E s idx o).bind (fun s kv => (readKeys E idx s os).bind (fun s l => (s, .ok (kv :: l))))

/-- The rest of `kd[key]` once the key is parsed (gpkit/keydict.py 171-185). -/
def getParsed (E : Env S N K) (s : St S N K F) (o : Obj S N) (idx : Option Nat) : Res S N K F (Got S K F) :=
  match (s.dict.keymap.get? o).getD [] with
  | [] => ({ s with dict := { s.dict with keymap := s.dict.keymap.del o } }, .error .keyError)
  | [k] => (readKey E s idx k).bind (fun s kv => (s, .ok (.one kv.2)))
  | ks => (readKeys E idx s ks).bind (fun s l => (s, .ok (.many l)))

/-- `kd[key]` (gpkit/keydict.py 168-185). -/
def getItem (E : Env S N K) (s : St S N K F) : Key S N → Res S N K F (Got S K F)
  | .whole k => getParsed E s (.var k) none
  | .elem k i => getParsed E s (.var k) (some i)
  | .str n => (updateKeymap E s).bind (fun s _ => getParsed E s (.str n) none)

/-- `key in kd` (gpkit/keydict.py 81-105). -/
def hasItem (E : Env S N K) (s : St S N K F) : Key S N → Res S N K F Bool
  | .whole k => (s, .ok (s.dict.store.contains k || s.dict.keymap.contains (.var k)))
  | .elem k i =>
    match s.dict.store.get? k with
    | none => (s, .ok (s.dict.keymap.contains (.var k)))
    | some (.cell _) => (s, .error .typeError)
    | some (.arr r) =>
      match s.heap[r]? with
      | none => (s, .error .notModelled)
      | some a =>
        match a.cells[i]? with
        | none => (s, .error .indexError)
        | some c => (s, .ok (match c with | .nan => false | _ => true))
  | .str n => (updateKeymap E s).bind (fun s _ => (s, .ok (s.dict.keymap.contains (.str n))))

/-- Removal of a key from one index entry (gpkit/keydict.py 272-279). `Sum.inr` is the `KeyError` of `set.remove`. -/
def unmap (key : Option S) (km : PyDict (Obj S N) (List (Obj S N))) (o : Obj S N) : Except Err (PyDict (Obj S N) (List (Obj S N))) :=
  match km.get? o with
  | none => .ok km
  | some l =>
    if l.length = 1 then .ok (km.del o)
    else
      match key with
      | some k => if .var k ∈ l then .ok (km.set o (l.erase (.var k))) else .error .keyError
      | none => .error .keyError

/-- The loop over the index entries of a deleted key (gpkit/keydict.py 271-279). An element's own key is never an index entry or in one;
`key` is `none` for it. If removal raises, entries that were removed before (in the order of a Python set) are not modelled. -/
def unmapAll (key : Option S) (os : List (Obj S N)) (s : St S N K F) : Res S N K F Unit :=
  match os.foldlM (unmap key) s.dict.keymap with
  | .ok km => ({ s with dict := { s.dict with keymap := km } }, .ok ())
  | .error e => (s, .error e)

/-- `del kd[key]` for a key with a `key` attribute (gpkit/keydict.py 259-279). For an element, `key.keys` contains the vector and its
name (and strings with the index, which are not in the index). -/
def delVar (E : Env S N K) (s : St S N K F) : S → Option Nat → Res S N K F Unit
  | k, none =>
    if s.dict.store.contains k then
      unmapAll (some k) (.var k :: (E.names k).map .str) { s with dict := { s.dict with store := s.dict.store.del k } }
    else (s, .error .keyError)
  | k, some i =>
    (setCell E s k i .nan).bind (fun s _ =>
      match s.dict.store.get? k with
      | some (.arr r) =>
        match s.heap[r]? with
        | none => (s, .error .notModelled)
        | some a =>
          let s := if a.cells.all (fun c => match c with | .nan => true | _ => false) then
            { s with dict := { s.dict with store := s.dict.store.del k } } else s
          unmapAll none (.var k :: (E.names k).map .str) s
      | _ => (s, .error .notModelled))

/-- The loop over the keys of a name. -/
def delKeys (E : Env S N K) : St S N K F → List (Obj S N) → Res S N K F Unit
  | s, [] => (s, .ok ())
  | s, .str _ :: _ => (s, .error .attributeError)
  | s, .var k :: os => (delVar E s k none).bind (fun s _ => delKeys E s os)

/-- `del kd[key]` (gpkit/keydict.py 249-279). A missing name leaves an empty entry in the `defaultdict`. -/
def delItem (E : Env S N K) (s : St S N K F) : Key S N → Res S N K F Unit
  | .whole k => delVar E s k none
  | .elem k i => delVar E s k (some i)
  | .str n =>
    (updateKeymap E s).bind (fun s _ =>
      match (s.dict.keymap.get? (.str n)).getD [] with
      | [] => ({ s with dict := { s.dict with keymap := s.dict.keymap.set (.str n) [] } }, .error .keyError)
      | ks => delKeys E s ks)

/-- `KeyDict(src)`, and `update(src)` on an empty `KeyDict` (gpkit/keydict.py 148-153): arrays are shared and not owned. -/
def copyOf (src : Dict S N K F) : Dict S N K F := ⟨src.store, src.keymap, src.unmapped, []⟩

/-- `update(src)` on a `KeyDict` that is not empty (gpkit/keydict.py 154-156): each item is written. -/
def updateFrom (E : Env S N K) (s : St S N K F) (src : Dict S N K F) : Res S N K F Unit :=
  src.store.foldl (fun r kv => r.bind (fun s _ => setItem E s (.whole kv.1) (match kv.2 with | .cell c => .one c | .arr r => .arr r))) (s, .ok ())

end
end KD
end Verif
