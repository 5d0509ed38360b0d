import Verif.Model.Diff
import Verif.Spec.Table
import Verif.Spec.Vector

/-! What comparisons of solutions are meant to tell. -/

namespace Verif
namespace Diffs
open Vectors Tables
variable {Q K A B C : Type}

/-- Elements are compared with the elements at the same place. -/
def Pairs (f : A → B → C) (a : Arr A) (b : Arr B) (d : Arr C) : Prop :=
  a.shape = b.shape ∧ d.shape = a.shape ∧ ∀ i, Inside i a.shape → d.at' i = f (a.at' i) (b.at' i)

/-- The first axis of `a` are the points of a sweep, `b` has the same variable without sweep: at each point elements are compared with the elements at the same
place. -/
def PairsSwept (f : A → B → C) (a : Arr A) (b : Arr B) (d : Arr C) : Prop :=
  d.shape = a.shape ∧ ∀ p i, Inside (p :: i) a.shape → d.at' (p :: i) = f (a.at' (p :: i)) (b.at' i)

section
variable [Field K] [LinearOrder K]

/-- The difference is less than a part `reltol` of `y`. -/
def Close (reltol x y : K) : Prop := x = y ∨ |x - y| < reltol * |y|

/-- All elements of two arrays of the same shape are numbers in relation `R`. -/
def All2 (R : K → K → Prop) (a b : Arr (Option K)) : Prop :=
  a.shape = b.shape ∧ ∀ i, Inside i a.shape → ∃ x y, a.at' i = some x ∧ b.at' i = some y ∧ R x y

variable [DecidableEq Q]

/-- Two solutions are almost equal: they have the same variables, with values that differ by less than a part `reltol` and sensitivities that differ by less than
`abstol`. -/
def Alike (reltol abstol : K) (s o : Soln Q K) : Prop :=
  (∀ k, (s.vars.get? k).isSome ↔ (o.vars.get? k).isSome) ∧
    ∀ k x y, s.vars.get? k = some x → o.vars.get? k = some y → All2 (Close reltol) x y ∧
      ∀ u v, s.senss.get? k = some u → o.senss.get? k = some v → All2 (fun p q => |p - q| < abstol) u v

/-- The largest of differences, and where it is found. -/
def Largest (data : List (Q × Cell K)) (x : K) : Prop :=
  (∃ kv ∈ data, some x ∈ kv.2.entries) ∧ ∀ kv ∈ data, ∀ y, some y ∈ kv.2.entries → |y| ≤ |x|

/-- The differences of variables: for each shared one an array with the differences of the elements, from two dictionaries. -/
def Differences (f : K → K → K) (s o : PyDict Q (Arr (Option K))) (shared : List Q) (data : List (Q × Cell K)) : Prop :=
  data.map (·.1) = shared ∧ ∀ kv ∈ data, ∃ x y d, s.get? kv.1 = some x ∧ o.get? kv.1 = some y ∧ (d.shape = [] → kv.2 = .num (d.at' [])) ∧ (d.shape ≠ [] → kv.2 = .arr d) ∧
    d.shape = x.shape ∧
    ∀ i, Inside i x.shape → ∃ p q, x.at' i = some p ∧ y.at' i = some q ∧ d.at' i = some (f p q)

/-- A table of differences: a reader finds those above the limit, or, if there are none, the largest. -/
def Tells (T : Attrs Q) (r : K → K) (o : Opts K) (data : List (Q × Cell K)) (res : List (Item Q K) × Option K) : Prop :=
  Reads T r o (fun _ => True) data res.1 ∧ ((∃ kv ∈ data, ∃ x, some x ∈ kv.2.entries ∧ o.minval < |x|) → res.2 = none) ∧
    (data ≠ [] → (∀ kv ∈ data, ∀ x, some x ∈ kv.2.entries → |x| ≤ o.minval) → ∃ x, res = ([], some x) ∧ Largest data x)

end

end Diffs
end Verif
