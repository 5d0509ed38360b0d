import Verif.Model.Process

/-!
# Processing results: specification
-/

namespace Verif
namespace Proc

variable {ι V K D : Type} [DecidableEq V]

mutual
/-- All sets in a tree, however deep, those inside before those around them. -/
def Tree.sets : Tree ι V K D → List (Own ι V K D × List (Comp V K))
  | .leaf => []
  | .lst kids => setsL kids
  | .arr kids => setsL kids
  | .cset own comps kids => setsL kids ++ [(own, comps)]
/-- All sets in a list of trees. -/
def setsL : List (Tree ι V K D) → List (Own ι V K D × List (Comp V K))
  | [] => []
  | t :: ts => t.sets ++ setsL ts
end

mutual
/-- No array contains lists or arrays. -/
def Tree.Shallow : Tree ι V K D → Prop
  | .leaf => True
  | .lst kids => ShallowL kids
  | .arr kids => (∀ t ∈ kids, (∃ o c k, t = .cset o c k) ∨ t = .leaf) ∧ ShallowL kids
  | .cset _ _ kids => ShallowL kids
/-- The same for a list. -/
def ShallowL : List (Tree ι V K D) → Prop
  | [] => True
  | t :: ts => t.Shallow ∧ ShallowL ts
end

/-- A computed variable depends on the values of `reads` and on nothing else, and can be computed once these have values. -/
structure Comp.Reads (c : Comp V K) (reads : List V) : Prop where
  only : ∀ d d' : PyDict V K, (∀ v ∈ reads, d.get? v = d'.get? v) → c.fn d = c.fn d'
  total : ∀ d : PyDict V K, (∀ v ∈ reads, d.contains v = true) → ∃ val, c.fn d = .ok val ∧ val.length = c.elems.length

/-- A computed variable has the value that its function gives for the values in the solution. -/
def Comp.Right (c : Comp V K) (vars free : PyDict V K) : Prop :=
  ∃ val, c.fn vars = .ok val ∧ val.length = c.elems.length ∧
    ∀ (i : Nat) v x, c.elems[i]? = some v → val[i]? = some x → vars.get? v = some x ∧ free.get? v = some x

/-- Either the whole of a vector has been solved for (or given), or none of it. -/
def Comp.Apart (c : Comp V K) (solved : PyDict V K) : Prop :=
  (∀ v ∈ c.elems, solved.contains v = true) ∨ ∀ v ∈ c.elems, solved.contains v = false

/-- Computed variables read what was solved for and what the sets before computed. -/
def Layered (solved : PyDict V K) (reads : Comp V K → List V) : List V → List (List (Comp V K)) → Prop
  | _, [] => True
  | known, cs :: rest => (∀ c ∈ cs, ∀ v ∈ reads c, solved.contains v = true ∨ v ∈ known) ∧ Layered solved reads (known ++ cs.flatMap (·.elems)) rest

/-- The `_derelax_map`s of sets. -/
def derelaxes (l : List (Own ι V K D × List (Comp V K))) : List (List (V × V)) :=
  l.filterMap (fun s => match s.1 with
    | .constants m _ => some m
    | _ => none)

/-- What a set of loose constraints has to warn about. -/
def looseNotes [LE K] [DecidableLE K] [Zero K] [DecidableEq ι] (sens : PyDict ι K) (s : Own ι V K D × List (Comp V K)) : List (Warn.Note ι V K) :=
  match s.1 with
  | .loose tol _ cons => (cons.filter (fun c => decide (tol ≤ (sens.get? c).getD 0))).map (fun c => .tight c ((sens.get? c).getD 0))
  | _ => []

end Proc
end Verif
