import Verif.Model.CSet
import Verif.Spec.Bounds

/-! # What a set of constraints contains, and what its constraints bound -/

namespace Verif
variable {V K : Type}

/-- The bounds that follow from the bounds `own` and the equalities `eqs`: in an equality a variable is bounded on one side if every other
variable is bounded on the side that matters. -/
inductive SetBounded [Zero K] [LT K] (own : V → Side → Prop) (eqs : List (List (V × K))) : V → Side → Prop
  | own {v s} : own v s → SetBounded own eqs v s
  | same {e v x s} : e ∈ eqs → (v, x) ∈ e →
      (∀ w y, (w, y) ∈ e → w ≠ v → (0 < y ↔ 0 < x) → SetBounded own eqs w s.opposite) →
      (∀ w y, (w, y) ∈ e → w ≠ v → ¬ (0 < y ↔ 0 < x) → SetBounded own eqs w s) → SetBounded own eqs v s

namespace CSet

mutual
/-- The single constraints inside an object, in order. -/
def leaves1 : Obj V K → List (Leaf V K)
  | .con c => [c]
  | .cset kids _ _ => leavesL kids
  | .raw kids => leavesL kids
  | .lst kids => leavesL kids
  | .arr kids => leavesL kids
  | .bad => []
/-- The single constraints inside a list of objects, in order. -/
def leavesL : List (Obj V K) → List (Leaf V K)
  | [] => []
  | o :: os => leaves1 o ++ leavesL os
end

mutual
/-- The variables inside an object. -/
def vars1 : Obj V K → List V
  | .con c => match c with
    | .ineq _ vks => vks
    | .meq _ vks => vks
  | .cset kids own _ => varsL kids ++ own
  | .raw kids => varsL kids
  | .lst kids => varsL kids
  | .arr kids => varsL kids
  | .bad => []
/-- The variables inside a list of objects. -/
def varsL : List (Obj V K) → List V
  | [] => []
  | o :: os => vars1 o ++ varsL os
end

mutual
/-- The variables that have a value in a set of constraints, at whatever level, that contains them. -/
def fixed1 : Obj V K → List V
  | .con _ => []
  | .cset kids own fixed => fixedL kids ++ (varsL kids ++ own).filter fixed
  | .raw kids => fixedL kids
  | .lst kids => fixedL kids
  | .arr kids => fixedL kids
  | .bad => []
/-- The same for a list of objects. -/
def fixedL : List (Obj V K) → List V
  | [] => []
  | o :: os => fixed1 o ++ fixedL os
end

/-- The exponents of the terms of the inequalities among the constraints. -/
def ineqsOf (ls : List (Leaf V K)) : List (List (V × K)) :=
  ls.flatMap (fun c => match c with
    | .ineq unsubbed _ => unsubbed.flatMap (fun p => p.map (fun t => t.1.items))
    | .meq _ _ => [])

/-- The exponents of the equalities among the constraints. -/
def eqsOf (ls : List (Leaf V K)) : List (List (V × K)) :=
  ls.flatMap (fun c => match c with
    | .ineq _ _ => []
    | .meq ((t :: _) :: _) _ => [t.1.items]
    | .meq _ _ => [])

/-- The bounds given directly: by a term of an inequality or by a value. -/
def OwnBound [Zero K] [LT K] (ls : List (Leaf V K)) (fixed : List V) (v : V) (s : Side) : Prop :=
  v ∈ fixed ∨ ∃ e ∈ ineqsOf ls, ∃ x, (v, x) ∈ e ∧ (match s with
    | .upper => 0 < x
    | .lower => x < 0)

mutual
/-- Whether something that is not a constraint occurs inside an object. -/
def bad1 : Obj V K → Bool
  | .con _ => false
  | .cset kids _ _ => badL kids
  | .raw kids => badL kids
  | .lst kids => badL kids
  | .arr kids => badL kids
  | .bad => true
/-- The same for a list of objects. -/
def badL : List (Obj V K) → Bool
  | [] => false
  | o :: os => bad1 o || badL os
end

mutual
/-- Whether an object is made of constraints and initialised sets only, with any nesting of lists and dicts, and with arrays whose elements
are constraints (or sets, if `sets` is true). -/
def usable1 (sets : Bool) : Obj V K → Bool
  | .con _ => true
  | .cset kids _ _ => usableL sets kids
  | .raw _ => false
  | .lst kids => usableL sets kids
  | .arr kids => usableE sets kids
  | .bad => false
/-- The same for a list of objects. -/
def usableL (sets : Bool) : List (Obj V K) → Bool
  | [] => true
  | o :: os => usable1 sets o && usableL sets os
/-- The same for the elements of an array. -/
def usableE (sets : Bool) : List (Obj V K) → Bool
  | [] => true
  | o :: os => (match o with
    | .con _ => true
    | .cset kids _ _ => sets && usableL sets kids
    | .raw _ => false
    | .lst _ => false
    | .arr _ => false
    | .bad => false) && usableE sets os
end

end CSet
end Verif
