import Verif.Model.GP
import Mathlib.Analysis.SpecialFunctions.Log.Basic

/-!
# The mosek interface

Models `optimize` of gpkit/solvers/mosek_conif.py 8-254: the conic program built from a GP, and the multipliers returned. The solver
itself, its status codes and its streams are not modelled.
-/

namespace Verif
namespace Mosek
open GP

/-- A bound as given to `putvarboundlist` and `putconboundlist`: `fr`, `fx` or `up`. -/
inductive Bnd where
  /-- free -/
  | fr
  /-- fixed -/
  | fx (v : ℝ)
  /-- upper bound -/
  | up (v : ℝ)

/-- What is put into a task. -/
structure Task where
  /-- bounds of the variables -/
  vars : List Bnd
  /-- bounds of the linear constraints -/
  cons : List Bnd
  /-- the arguments of `putaijlist` one after the other: row, column, value -/
  puts : Coot ℝ
  /-- the first of the three consecutive variables of each exponential cone -/
  cones : List Nat
  /-- the objective: a variable and its coefficient -/
  obj : Nat × ℝ

/-- `lse_posys` (gpkit/solvers/mosek_conif.py 56-62). -/
def lsePosys (k : List Nat) : List Nat := 0 :: (List.range' 1 (k.length - 1)).filter (fun i => 1 < (k[i]?).getD 0)

/-- `lin_posys` (gpkit/solvers/mosek_conif.py 57-62). -/
def linPosys (k : List Nat) : List Nat := (List.range' 1 (k.length - 1)).filter (fun i => ¬ 1 < (k[i]?).getD 0)

/-- `lin_idxs` (gpkit/solvers/mosek_conif.py 66). -/
def linIdxs (k pIdxs : List Nat) : List Nat := (pIdxs.zipIdx.filter (fun pi => pi.1 ∈ linPosys k)).map (·.2)

/-- The selection `lse_idxs` (gpkit/solvers/mosek_conif.py 67-68) as a list of rows; `n` is the number of rows. -/
def lseIdxs (k pIdxs : List Nat) (n : Nat) : List Nat := (List.range n).filter (fun i => i ∉ linIdxs k pIdxs)

/-- A row of `A.tocsr()` (gpkit/small_classes.py 58-61): scipy adds repeated entries. -/
noncomputable def csrRow (A : Coot ℝ) (r : Nat) : List (Nat × ℝ) :=
  ((A.filter (fun t => t.1 = r)).map (fun t => t.2.1)).dedup.map
    (fun j => (j, ((A.filter (fun t => t.1 = r ∧ t.2.1 = j)).map (fun t => t.2.2)).sum))

/-- `A[idxs, :].tocoo()` for the converted matrix (gpkit/solvers/mosek_conif.py 69 and 71). -/
noncomputable def csrRows (A : Coot ℝ) (idxs : List Nat) : Coot ℝ :=
  idxs.zipIdx.flatMap (fun mr => (csrRow A mr.1).map (fun e => (mr.2, e.1, e.2)))

/-- `A.shape[1]` (gpkit/small_classes.py 45-46). -/
def ncols (A : Coot ℝ) : Nat := (A.map (fun t => t.2.1 + 1)).foldr max 0

/-- `A_lse` (gpkit/solvers/mosek_conif.py 63-75): without linear posynomials, the matrix is used as it is. -/
noncomputable def aLse (A : Coot ℝ) (k pIdxs : List Nat) (n : Nat) : Coot ℝ :=
  if (linPosys k).isEmpty then A else csrRows A (lseIdxs k pIdxs n)

/-- `k_lse` (gpkit/solvers/mosek_conif.py 77). -/
def kLse (k : List Nat) : List Nat := (lsePosys k).map (fun i => (k[i]?).getD 0)

/-- `lse_p_idx` (gpkit/solvers/mosek_conif.py 80-83). -/
def lsePIdx (k : List Nat) : List Nat := (kLse k).zipIdx.flatMap (fun ki => List.replicate ki.1 ki.2)

/-- The task (gpkit/solvers/mosek_conif.py 84-191). As every row of `A` has an entry, `A.shape[0]` is `len(c)`. -/
noncomputable def build (cs : List ℝ) (A : Coot ℝ) (k pIdxs : List Nat) : Task :=
  let logc := fun i => Real.log ((cs[i]?).getD 0)
  let n := (kLse k).sum
  let p := (kLse k).length
  let m := ncols A
  { vars := List.replicate m .fr ++ (List.replicate n [Bnd.fr, .fx 1, .fr]).flatten ++ .fr :: List.replicate (p - 1) (.up 0)
    cons := (lseIdxs k pIdxs cs.length).map (fun i => .fx (-logc i)) ++ List.replicate p (.up 1) ++
      (linIdxs k pIdxs).map (fun i => .up (-logc i))
    puts := aLse A k pIdxs cs.length ++ (List.range n).map (fun i => (i, m + 3 * i + 2, -1)) ++
      (lsePIdx k).zipIdx.map (fun qi => (qi.2, m + 3 * n + qi.1, -1)) ++
      (List.range p).flatMap (fun q => ((lsePIdx k).zipIdx.filter (fun qi => qi.1 = q)).map (fun qi => (n + q, m + 3 * qi.2, 1))) ++
      (csrRows A (linIdxs k pIdxs)).map (fun t => (n + p + t.1, t.2.1, t.2.2))
    cones := (List.range n).map (fun i => m + 3 * i)
    obj := (m + 3 * n, 1) }

/-- `duals[duals < 0] = 0` (gpkit/solvers/mosek_conif.py 228 and 235). -/
noncomputable def clip (l : List ℝ) : List ℝ := open Classical in l.map (fun d => if d < 0 then 0 else d)

/-- `la[idxs] = vals`. -/
def assign (la : List ℝ) (idxs : List Nat) (vals : List ℝ) : List ℝ := (idxs.zip vals).foldl (fun la iv => la.set iv.1 iv.2) la

/-- The returned multipliers (gpkit/solvers/mosek_conif.py 225-242). `sux` are those of the upper bounds of the variables `z[1:]`,
`suc` those of the rows of the linear posynomials. -/
noncomputable def merged (k : List Nat) (sux suc : List ℝ) : List ℝ :=
  if (linPosys k).isEmpty then clip sux
  else (assign (assign (List.replicate k.length 0) (lsePosys k).tail (clip sux)) (linPosys k) (clip suc)).tail

/-- What is returned as `la`, from the multipliers `sux` of the upper bounds of all variables and `suc` of all rows: the slices read by
`getsuxslice` and `getsucslice` (gpkit/solvers/mosek_conif.py 225-242). -/
noncomputable def multipliers (A : Coot ℝ) (k pIdxs : List Nat) (sux suc : Nat → ℝ) : List ℝ :=
  let n := (kLse k).sum
  let p := (kLse k).length
  merged k ((List.range (p - 1)).map (fun q => sux (ncols A + 3 * n + 1 + q)))
    ((List.range (linIdxs k pIdxs).length).map (fun j => suc (n + p + j)))

end Mosek
end Verif
