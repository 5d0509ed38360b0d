import Verif.Model.Bounds

/-!
# Sets of constraints

Models `ConstraintSet.__init__`, `_update`, `flatiter` and `add_meq_bounds` (gpkit/constraints/set.py 12-123, 166-172), the attributes
`bounded` and `meq_bounded` of single constraints (gpkit/nomials/math.py 415-419, 518-529) and `Model.verify_docstring`
(gpkit/constraints/model.py 84-134).

Not modelled: names and labels of constraints, the `substitutions` dictionary itself (a set of constraints comes with the predicate
"this key has a value here", gpkit/constraints/set.py 103-110) and the removal of `value` from `descr`.
-/

namespace Verif
namespace CSet
open GP
variable {V K : Type} [DecidableEq V] [Field K] [LinearOrder K]

/-- `np.sign`. -/
def npSign (x : K) : Int := if 0 < x then 1 else if x < 0 then -1 else 0

/-- A single constraint: its unsubstituted posynomials and its `vks`. Signomial constraints have the bounds of their approximation
(gpkit/nomials/math.py 577, 678) and count as one of these. -/
inductive Leaf (V K : Type) where
  /-- `PosynomialInequality` -/
  | ineq (unsubbed : List (PyDict (HV V K) K)) (vks : List V)
  /-- `MonomialEquality` -/
  | meq (unsubbed : List (PyDict (HV V K) K)) (vks : List V)

/-- `constraint.vks`. -/
def Leaf.vks : Leaf V K → List V
  | .ineq _ vks => vks
  | .meq _ vks => vks

/-- `s.update(t)` for sets. -/
def setUnion {α : Type} [DecidableEq α] (s t : List α) : List α := t.foldl (fun s x => if x ∈ s then s else s ++ [x]) s

/-- `constraint.bounded` (gpkit/nomials/math.py 415-419 and 518). -/
def Leaf.bounded : Leaf V K → List (Bd V)
  | .ineq unsubbed _ => setUnion [] (unsubbed.flatMap (fun p => p.flatMap (fun t =>
      t.1.items.map (fun kx => (kx.1, if 0 < kx.2 then Side.upper else Side.lower)))))
  | .meq _ _ => []

/-- The condition for a bound of `key`, whose exponent is `x`, on the given side (gpkit/nomials/math.py 524-527). -/
def meqCond (e : HV V K) (key : V) (x : K) (s : Side) : List (Bd V) :=
  (e.items.filter (fun kx => kx.1 ≠ key)).map (fun kx => (kx.1, if npSign kx.2 ≠ npSign x then s else s.flip))

/-- `self.meq_bounded[(key, "upper")] = frozenset([ubs])` and the same for `"lower"` (gpkit/nomials/math.py 528-529). -/
def meqEntry (e : HV V K) (q : Meq V) (kx : V × K) : Meq V :=
  (q.set (kx.1, .upper) [meqCond e kx.1 kx.2 .upper]).set (kx.1, .lower) [meqCond e kx.1 kx.2 .lower]

/-- `constraint.meq_bounded` (gpkit/nomials/math.py 519-529). -/
def Leaf.meqBounded : Leaf V K → Meq V
  | .ineq _ _ => []
  | .meq ((t :: _) :: _) vks =>
    if vks.length > 1 then t.1.items.foldl (meqEntry t.1) [] else []
  | .meq _ _ => []

/-- What can be an element of a set of constraints. -/
inductive Obj (V K : Type) where
  /-- a single constraint -/
  | con (c : Leaf V K)
  /-- a `ConstraintSet`: its elements, its `unique_varkeys` and `bonusvks`, and which keys have a value -/
  | cset (kids : List (Obj V K)) (own : List V) (fixed : V → Bool)
  /-- a `ConstraintSet` whose `__init__` has not been called -/
  | raw (kids : List (Obj V K))
  /-- a list, tuple, dict or `ArrayConstraint` -/
  | lst (kids : List (Obj V K))
  /-- a one-dimensional numpy array -/
  | arr (kids : List (Obj V K))
  /-- anything else, for example a bool -/
  | bad

/-- The attributes `flatiter` is asked to stop at. -/
inductive Attr where
  /-- `"vks"` -/
  | vks
  /-- `"as_hmapslt1"` -/
  | hmaps
  /-- `"process_result"` -/
  | process
  deriving DecidableEq

/-- `hasattr`. -/
def Obj.has : Obj V K → Attr → Bool
  | .con _, a => a ≠ .process
  | .cset _ _ _, _ => true
  | .raw _, a => a ≠ .vks
  | _, _ => false

mutual
/-- The body of the loop of `flatiter` (gpkit/constraints/set.py 50-60). The elements of an array are yielded as they are. -/
def flat1 (a : Option Attr) : Obj V K → List (Obj V K)
  | .con c => [.con c]
  | .bad => [.bad]
  | .cset kids own fixed => if (a.map (fun a => (Obj.cset kids own fixed).has a)).getD false then [.cset kids own fixed] else flatL a kids
  | .raw kids => if (a.map (fun a => (Obj.raw kids).has a)).getD false then [.raw kids] else flatL a kids
  | .lst kids => flatL a kids
  | .arr kids => kids
/-- `flatiter` (gpkit/constraints/set.py 45-60). -/
def flatL (a : Option Attr) : List (Obj V K) → List (Obj V K)
  | [] => []
  | o :: os => flat1 a o ++ flatL a os
end

/-- The attributes of a set of constraints. -/
structure St (V : Type) where
  /-- `vks` -/
  vks : List V := []
  /-- `bounded` -/
  bounded : List (Bd V) := []
  /-- `meq_bounded` -/
  meq : Meq V := []

/-- `self.meq_bounded[bound].update(solutionset)` (gpkit/constraints/set.py 122-123). -/
def addSolutions (q : Meq V) (bc : Bd V × List (List (Bd V))) : Meq V :=
  bc.2.foldl (fun q c => addCond q bc.1 c) (if q.contains bc.1 then q else q.set bc.1 [])

/-- `_update` (gpkit/constraints/set.py 114-123). -/
def update (s t : St V) : St V :=
  ⟨setUnion s.vks t.vks, setUnion s.bounded t.bounded, t.meq.foldl addSolutions s.meq⟩

/-- State of `add_meq_bounds`. -/
structure Add (V : Type) where
  /-- `still_alive` -/
  alive : Bool
  /-- `bounded` -/
  bounded : List (Bd V)
  /-- `meq_bounded` -/
  meq : Meq V

/-- The body of the loop of `add_meq_bounds` (gpkit/constraints/set.py 18-26). -/
def addStep (s : Add V) (b : Bd V) : Add V :=
  if b ∈ s.bounded then { s with meq := s.meq.del b }
  else if ((s.meq.get? b).getD []).any (fun c => c.all (fun b' => decide (b' ∈ s.bounded))) then
    ⟨true, s.bounded ++ [b], s.meq.del b⟩
  else s

/-- One round (gpkit/constraints/set.py 17-26). -/
def addRound (bounded : List (Bd V)) (meq : Meq V) : Add V := (meq.map (·.1)).foldl addStep ⟨false, bounded, meq⟩

/-- `add_meq_bounds` (gpkit/constraints/set.py 12-26), with the number of rounds bounded by `n`. -/
def addLoop : Nat → List (Bd V) → Meq V → List (Bd V) × Meq V
  | 0, bounded, meq => (bounded, meq)
  | n + 1, bounded, meq =>
    if (addRound bounded meq).alive then addLoop n (addRound bounded meq).bounded (addRound bounded meq).meq
    else ((addRound bounded meq).bounded, (addRound bounded meq).meq)

/-- `add_meq_bounds`: every round but the last removes an entry, so this many rounds are enough (`addLoop_enough`). -/
def addMeqBounds (bounded : List (Bd V)) (meq : Meq V) : List (Bd V) × Meq V := addLoop (meq.length + 1) bounded meq

/-- The end of `__init__` (gpkit/constraints/set.py 96-112). -/
def finish (own : List V) (fixed : V → Bool) (s : St V) : St V :=
  let vks := setUnion s.vks own
  let b := setUnion s.bounded ((vks.filter fixed).flatMap (fun v => [(v, Side.upper), (v, Side.lower)]))
  let r := addMeqBounds b s.meq
  ⟨vks, r.1, r.2⟩

mutual
/-- The attributes of an object that has `vks`. -/
def state : Obj V K → Except Err (St V)
  | .con c => .ok ⟨c.vks, c.bounded, c.meqBounded⟩
  | .cset kids own fixed => (initL kids {}).map (finish own fixed)
  | .raw _ => .error .attributeError
  | .lst _ => .error .attributeError
  | .arr _ => .error .attributeError
  | .bad => .error .attributeError
/-- `_update` for each object that `flatiter(constraint, "vks")` yields (gpkit/constraints/set.py 86-88). -/
def updateFlat : Obj V K → St V → Except Err (St V)
  | .con c, s => (state (.con c)).map (update s)
  | .cset kids own fixed, s => (state (.cset kids own fixed)).map (update s)
  | .raw kids, s => updateFlatL kids s
  | .lst kids, s => updateFlatL kids s
  | .arr kids, s => updateEach kids s
  | .bad, _ => .error .attributeError
/-- `_update` for each object yielded for a list of objects. -/
def updateFlatL : List (Obj V K) → St V → Except Err (St V)
  | [], s => .ok s
  | o :: os, s => (updateFlat o s).bind (updateFlatL os)
/-- `_update` for each element of an array. -/
def updateEach : List (Obj V K) → St V → Except Err (St V)
  | [], s => .ok s
  | o :: os, s => ((state o).map (update s)).bind (updateEach os)
/-- The body of the loop in `__init__` (gpkit/constraints/set.py 81-95). Every exception becomes the `ValueError` of
`badelement`; that making its message can raise another exception is modelled in `Model/BadElement.lean`. -/
def init1 : Obj V K → St V → Except Err (St V)
  | .con c, s => (state (.con c)).map (update s)
  | .cset kids own fixed, s => (state (.cset kids own fixed)).map (update s)
  | .raw _, _ => .error .valueError
  | .lst kids, s => (updateFlatL kids s).mapError (fun _ => .valueError)
  | .arr kids, s => (updateFlatL kids s).mapError (fun _ => .valueError)
  | .bad, _ => .error .valueError
/-- The loop in `__init__` (gpkit/constraints/set.py 80-95). -/
def initL : List (Obj V K) → St V → Except Err (St V)
  | [], s => .ok s
  | o :: os, s => (init1 o s).bind (initL os)
end

mutual
/-- `ConstraintSet.as_hmapslt1` (gpkit/constraints/set.py 168-172): the single constraints that are asked for their solver forms, for one
object yielded by `flatiter(self, "as_hmapslt1")`. -/
def solver1 : Obj V K → Except Err (List (Leaf V K))
  | .con c => .ok [c]
  | .cset kids _ _ => solverL kids
  | .raw kids => solverL kids
  | .lst kids => solverL kids
  | .arr kids => solverEach kids
  | .bad => .error .attributeError
/-- The same for the elements of a set or list. -/
def solverL : List (Obj V K) → Except Err (List (Leaf V K))
  | [] => .ok []
  | o :: os => (solver1 o).bind (fun l => (solverL os).map (l ++ ·))
/-- The same for the elements of an array: each must have `as_hmapslt1`. -/
def solverEach : List (Obj V K) → Except Err (List (Leaf V K))
  | [] => .ok []
  | o :: os =>
    (match o with
      | .con c => Except.ok [c]
      | .cset kids _ _ => solverL kids
      | .raw kids => solverL kids
      | .lst _ => .error .attributeError
      | .arr _ => .error .attributeError
      | .bad => .error .attributeError).bind (fun l => (solverEach os).map (l ++ ·))
end

/-- The part of `verify_docstring` that fills `missingbounds` after the bounds expected to be missing were added
(gpkit/constraints/model.py 103-123). The first component is `bounded`, the second the keys of `missingbounds`. -/
def missingBounds (varkeys : List V) (bounded : List (Bd V)) (meq : Meq V) : List (Bd V) :=
  let missing := meq.map (·.1)
  if bounded.length + missing.length ≠ 2 * varkeys.length then
    missing ++ (varkeys.flatMap (fun v => [(v, Side.upper), (v, Side.lower)])).filter (fun b => b ∉ bounded ∧ b ∉ missing)
  else missing

/-- `verify_docstring` (gpkit/constraints/model.py 84-134): `true` if it raises. `expected` is the result of `expected_unbounded`. -/
def verifyRaises (s : St V) (expected : List (Bd V)) : Bool :=
  if s.bounded.any (fun b => decide (b ∈ expected)) then true
  else
    let r := addMeqBounds (setUnion s.bounded expected) s.meq
    !(missingBounds s.vks r.1 r.2).isEmpty

end CSet
end Verif
