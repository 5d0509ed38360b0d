import Verif.Model.PyDict
import Verif.Model.Nomial

/-!
# Saving solutions

Models `SolSavingEnvironment` (gpkit/solution_array.py 26-59) and its use in `SolutionArray.save` (481-491).

Simplifications: constraints are objects without an equality of their own (gpkit/nomials/math.py 365-372; as keys of
`sensitivities["constraints"]` they are told apart by identity), with attributes of the object and of its class. Pickling is a function that
leaves the objects as they are and may raise.
-/

namespace Verif
namespace Sav

/-- Attributes: of the objects, and of their classes. -/
structure Attrs (C Val : Type) where
  /-- `c.__dict__` -/
  inst : C → String → Option Val
  /-- attributes of the class of `c` -/
  cls : C → String → Option Val

/-- A solution's `sensitivities`, and the attributes of constraints. -/
structure World (C Val S : Type) where
  /-- attributes -/
  attrs : Attrs C Val
  /-- `solarray["sensitivities"]` -/
  sens : PyDict String S

variable {C Val S R : Type} [DecidableEq C]

/-- `getattr(c, attr, None)`. -/
def getattr (a : Attrs C Val) (c : C) (attr : String) : Option Val := (a.inst c attr).or (a.cls c attr)

/-- `setattr(c, attr, v)`. -/
def setattr (a : Attrs C Val) (c : C) (attr : String) (v : Val) : Attrs C Val :=
  { a with inst := fun c' x => if c' = c ∧ x = attr then some v else a.inst c' x }

/-- `delattr(c, attr)`. -/
def delattr (a : Attrs C Val) (c : C) (attr : String) : Attrs C Val × Except Err Unit :=
  match a.inst c attr with
  | some _ => ({ a with inst := fun c' x => if c' = c ∧ x = attr then none else a.inst c' x }, .ok ())
  | none => (a, .error .attributeError)

/-- The loop over the constraints for one attribute (gpkit/solution_array.py 44-47). -/
def storeAttr (truthy : Val → Bool) (attr : String) : List C → Attrs C Val → PyDict C Val → Attrs C Val × Except Err (PyDict C Val)
  | [], a, store => (a, .ok store)
  | c :: cs, a, store =>
    match getattr a c attr with
    | some v =>
      if truthy v then
        match delattr a c attr with
        | (a', .ok _) => storeAttr truthy attr cs a' (store.set c v)
        | (a', .error e) => (a', .error e)
      else storeAttr truthy attr cs a store
    | none => storeAttr truthy attr cs a store

/-- The loop over the attributes (gpkit/solution_array.py 41-48). -/
def storeAll (truthy : Val → Bool) (cs : List C) : List String → Attrs C Val → Attrs C Val × Except Err (PyDict String (PyDict C Val))
  | [], a => (a, .ok [])
  | attr :: attrs, a =>
    match storeAttr truthy attr cs a [] with
    | (a', .error e) => (a', .error e)
    | (a', .ok store) =>
      match storeAll truthy cs attrs a' with
      | (a'', .error e) => (a'', .error e)
      | (a'', .ok rest) => (a'', .ok ((attr, store) :: rest))

/-- The attributes that are removed (gpkit/solution_array.py 41-42). -/
def removed : List String := ["bounded", "meq_bounded", "vks", "v_ss", "unsubbed", "varkeys"]

/-- What `__enter__` keeps: `attrstore` or `constraintstore`. -/
inductive Kept (C Val S : Type) where
  /-- with constraints -/
  | attrs (d : PyDict String (PyDict C Val))
  /-- without -/
  | constraints (s : S)

/-- `__enter__` (gpkit/solution_array.py 39-51). `members` lists the constraints in `sensitivities["constraints"]`. -/
def enter (truthy : Val → Bool) (members : S → List C) (save : Bool) (w : World C Val S) : World C Val S × Except Err (Kept C Val S) :=
  match w.sens.get? "constraints" with
  | none => (w, .error .keyError)
  | some s =>
    if save then
      match storeAll truthy (members s) removed w.attrs with
      | (a, .error e) => ({ w with attrs := a }, .error e)
      | (a, .ok d) => ({ w with attrs := a }, .ok (.attrs d))
    else ({ w with sens := w.sens.del "constraints" }, .ok (.constraints s))

/-- `for constraint, value in store.items(): setattr(constraint, attr, value)`. -/
def restoreAttr (attr : String) (store : PyDict C Val) (a : Attrs C Val) : Attrs C Val :=
  store.foldl (fun a cv => setattr a cv.1 attr cv.2) a

/-- `__exit__` (gpkit/solution_array.py 53-59). -/
def exit (k : Kept C Val S) (w : World C Val S) : World C Val S :=
  match k with
  | .attrs d => { w with attrs := d.foldl (fun a st => restoreAttr st.1 st.2 a) w.attrs }
  | .constraints s => { w with sens := w.sens.set "constraints" s }

/-- `with SolSavingEnvironment(self, saveconstraints): pickle.dump(…)` (gpkit/solution_array.py 490-491). -/
def save (truthy : Val → Bool) (members : S → List C) (saveconstraints : Bool) (pickle : World C Val S → Except Err R) (w : World C Val S) :
    World C Val S × Except Err R :=
  match enter truthy members saveconstraints w with
  | (w', .error e) => (w', .error e)
  | (w', .ok k) => (exit k w', pickle w')

end Sav
end Verif
