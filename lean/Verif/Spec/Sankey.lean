import Verif.Model.Sankey

/-! Specification for Sankey diagrams: what flows into a node flows out of it. -/

namespace Verif
namespace Sankey
open VK

/-- What links bring to a node. -/
noncomputable def inflow (l : List ((Id × Id) × ℝ)) (n : Id) : ℝ := ((l.filter (fun e => e.1.2 = n)).map (·.2)).sum

/-- What links take from a node. -/
noncomputable def outflow (l : List ((Id × Id) × ℝ)) (n : Id) : ℝ := ((l.filter (fun e => e.1.1 = n)).map (·.2)).sum

/-- Links form a tree above `root`, and at all nodes between as much flows in as out. -/
structure Conserved (root : Id) (l : List ((Id × Id) × ℝ)) : Prop where
  one : ∀ e ∈ l, ∀ e' ∈ l, e.1.1 = e'.1.1 → e = e'
  flow : ∀ n, n ≠ root → (∃ e ∈ l, e.1.2 = n) → inflow l n = outflow l n

variable {C V : Type}

mutual
/-- The constraints in a set, each with its key if it has one. -/
def CSet.cons (key : Option Str) : CSet C → List (Option Str × C)
  | .con c => [(key, c)]
  | .arr _ cs => consL cs
  | .lst _ cs => consL cs
  | .dct _ cs => consD cs
def CSet.consL : List (CSet C) → List (Option Str × C)
  | [] => []
  | c :: cs => c.cons none ++ CSet.consL cs
def CSet.consD : List (Str × CSet C) → List (Option Str × C)
  | [] => []
  | (k, c) :: cs => c.cons (some k) ++ CSet.consD cs
end

mutual
/-- The constants of all named models in a set. -/
def CSet.fixed : CSet C → List Fixed
  | .con _ => []
  | .arr _ cs => fixedL cs
  | .lst m cs => (m.map (·.2)).getD [] ++ fixedL cs
  | .dct m cs => (m.map (·.2)).getD [] ++ fixedD cs
def CSet.fixedL : List (CSet C) → List Fixed
  | [] => []
  | c :: cs => c.fixed ++ CSet.fixedL cs
def CSet.fixedD : List (Str × CSet C) → List Fixed
  | [] => []
  | (_, c) :: cs => c.fixed ++ CSet.fixedD cs
end

mutual
/-- The constants of each named model in a set. -/
def CSet.models : CSet C → List (List Fixed)
  | .con _ => []
  | .arr _ cs => modelsL cs
  | .lst m cs => (m.map (·.2)).toList ++ modelsL cs
  | .dct m cs => (m.map (·.2)).toList ++ modelsD cs
def CSet.modelsL : List (CSet C) → List (List Fixed)
  | [] => []
  | c :: cs => c.models ++ CSet.modelsL cs
def CSet.modelsD : List (Str × CSet C) → List (List Fixed)
  | [] => []
  | (_, c) :: cs => c.models ++ CSet.modelsD cs
end

/-- The set is not a named model with constants. -/
def CSet.Bare : CSet C → Prop
  | .lst (some m) _ => m.2 = []
  | .dct (some m) _ => m.2 = []
  | _ => True

mutual
/-- No named model with constants has a key. -/
def CSet.Keyless : CSet C → Prop
  | .con _ => True
  | .arr _ cs => KeylessL cs
  | .lst _ cs => KeylessL cs
  | .dct _ cs => KeylessD cs
def CSet.KeylessL : List (CSet C) → Prop
  | [] => True
  | c :: cs => c.Keyless ∧ CSet.KeylessL cs
def CSet.KeylessD : List (Str × CSet C) → Prop
  | [] => True
  | (_, c) :: cs => c.Bare ∧ c.Keyless ∧ CSet.KeylessD cs
end

/-- The size of the sensitivity to a constant, zero if there is none. -/
noncomputable def Sens.size : Sens → ℝ
  | .val x => |x|
  | _ => 0

/-- The sensitivity to a constraint, or of it to a variable, zero if there is none. -/
noncomputable def Sol.sens (S : Sol C V) (var : Option V) (c : C) : ℝ :=
  match var with
  | none => -|(S.csenss c).getD 0|
  | some v => ((S.vss c).bind (· v)).getD 0

/-- What is in a diagram for a constraint: a node that has its key as title, or where there is none the beginning of its text, and a link from there with its
sensitivity. -/
def Shows (S : Sol C V) (var : Option V) (s : St) (key : Option Str) (c : C) : Prop :=
  ∃ node target title tag x, s.nodes.get? node = some ⟨title, tag⟩ ∧
    (key = some title ∨ key = none ∧ title.take 30 = (S.text c).take 30 ∧ ((S.text c).length ≤ 30 → title = S.text c)) ∧
    s.links.get? (node, target) = some x ∧ |x - S.sens var c| ≤ 1 / 10 ^ 10

/-- The node a link comes from stands for neither a constraint nor a constant. -/
def Untagged (s : St) (e : (Id × Id) × ℝ) : Prop := ∀ d, s.nodes.get? e.1.1 = some d → d.tag = .plain

end Sankey
end Verif
