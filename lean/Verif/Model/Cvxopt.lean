import Verif.Model.GP
import Mathlib.Analysis.SpecialFunctions.Log.Basic

/-!
# The cvxopt interface

Models `optimize` of gpkit/solvers/cvxopt.py 9-97: how a GP is split into the arguments of `cvxopt.solvers.gp`, and how the
multipliers are put back. The solver itself is not modelled.
-/

namespace Verif
namespace Cvxopt
open GP

/-- The six index lists (gpkit/solvers/cvxopt.py 42-43). -/
structure Split where
  /-- `lse_mons` -/
  lseMons : List Nat := []
  /-- `lin_mons` -/
  linMons : List Nat := []
  /-- `leq_mons` -/
  leqMons : List Nat := []
  /-- `lse_posys` -/
  lsePosys : List Nat := []
  /-- `lin_posys` -/
  linPosys : List Nat := []
  /-- `leq_posys` -/
  leqPosys : List Nat := []

/-- The body of the loop (gpkit/solvers/cvxopt.py 44-56) for posynomial `i`. -/
def splitStep (k all first : List Nat) (useLeqs : Bool) (s : Split) (i : Nat) : Split :=
  let start := (k.take i).sum
  let n := (k[i]?).getD 0
  let mons := List.range' start n
  if useLeqs && start ∈ all then
    if start ∈ first then { s with leqPosys := s.leqPosys ++ [i], leqMons := s.leqMons ++ mons } else s
  else if i ≠ 0 ∧ n = 1 then { s with linMons := s.linMons ++ mons, linPosys := s.linPosys ++ [i] }
  else { s with lseMons := s.lseMons ++ mons, lsePosys := s.lsePosys ++ [i] }

/-- The loop (gpkit/solvers/cvxopt.py 44-56). -/
def split (k all first : List Nat) (useLeqs : Bool) : Split :=
  (List.range k.length).foldl (splitStep k all first useLeqs) {}

/-- `A[mons, :].tocoo()` with the extra zero entry that fixes the number of columns (gpkit/solvers/cvxopt.py 60-64). -/
def selectRows {K : Type} [Zero K] (A : Coot K) (mons : List Nat) (maxcol : Nat) : Coot K :=
  mons.zipIdx.flatMap (fun mr => (A.filter (fun t => t.1 = mr.1)).map (fun t => (mr.2, t.2.1, t.2.2))) ++ [(0, maxcol, 0)]

/-- The arguments of `cvxopt.solvers.gp`: minimise the log-sum-exp of the first block of `F x + g` subject to those of the other
blocks being at most zero, `G x <= h` and `A x = b`. An absent pair stands for no rows. -/
structure Prob where
  /-- block sizes -/
  K : List Nat
  /-- exponent rows -/
  F : Coot ℝ
  /-- log coefficients -/
  g : List ℝ
  /-- linear inequalities -/
  G : Coot ℝ
  /-- right-hand sides -/
  h : List ℝ
  /-- linear equalities -/
  A : Coot ℝ
  /-- right-hand sides -/
  b : List ℝ

/-- Building the arguments (gpkit/solvers/cvxopt.py 41, 57-79). -/
noncomputable def build (cs : List ℝ) (A : Coot ℝ) (k : List Nat) (s : Split) (maxcol : Nat) : Prob :=
  let logc := fun m => Real.log ((cs[m]?).getD 0)
  { K := s.lsePosys.map (fun i => (k[i]?).getD 0)
    F := selectRows A s.lseMons maxcol
    g := s.lseMons.map logc
    G := selectRows A s.linMons maxcol
    h := s.linMons.map (fun m => -logc m)
    A := selectRows A s.leqMons maxcol
    b := s.leqMons.map (fun m => -logc m) }

/-- `la[idxs] = vals`. -/
def assign {K : Type} (la : List K) (idxs : List Nat) (vals : List K) : List K :=
  (idxs.zip vals).foldl (fun la iv => la.set iv.1 iv.2) la

/-- The multiplier of one equality (gpkit/solvers/cvxopt.py 89-93). -/
noncomputable def assignEq (la : List ℝ) (iy : Nat × ℝ) : List ℝ :=
  open Classical in if iy.2 ≥ 0 then la.set iy.1 iy.2 else la.set (iy.1 + 1) (-iy.2)

/-- The returned multipliers (gpkit/solvers/cvxopt.py 86-93). -/
noncomputable def multipliers (n : Nat) (s : Split) (zl znl y : List ℝ) : List ℝ :=
  let la := assign (List.replicate n 0) s.linPosys zl
  let la := assign la s.lsePosys (1 :: znl)
  (s.leqPosys.zip y).foldl assignEq la

end Cvxopt
end Verif
