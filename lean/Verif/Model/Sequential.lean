import Verif.Model.Pipeline
import Verif.Model.SGP
import Verif.Model.Guess
import Verif.Model.SigEq

/-!
# From a signomial model to its solution

Models how `SequentialGeometricProgram` puts the pieces together (gpkit/constraints/sgp.py 52-251): the constructor, one pass of `localsolve`, and what it
returns. The pieces are those of `Model/Pipeline.lean`, `Model/SGP.lean`, `Model/Guess.lean` and `Model/SigEq.lean`. What an exception in the middle of an
update leaves behind is not modelled.
-/

namespace Verif
namespace SeqGP
open Pipeline
variable {V N D : Type} [DecidableEq V] [DecidableEq N] [AddCommGroup D] [DecidableEq D]

/-- `self.slack**x` (gpkit/constraints/sgp.py 46-47 and 62-66), where the slack is the number 1 without `use_pccp`. -/
noncomputable def slackPow (slack : Option V) (x : ℝ) : PyDict (HV V ℝ) ℝ :=
  match slack with
  | none => [(HV.empty, 1)]
  | some v => if x = 0 then [(HV.empty, 1)] else [(⟨[(v, x)]⟩, 1)]

/-- `Posynomial(hmaplt1) <= self.slack` (gpkit/constraints/sgp.py 82). -/
noncomputable def approxCon (slack : Option V) (h : PyDict (HV V ℝ) ℝ) : Con V D := .le false ⟨h, none⟩ ⟨slackPow slack 1, none⟩

/-- `self.slack >= 1` (gpkit/constraints/sgp.py 65), the first of `gpconstraints`. -/
noncomputable def slackCons (slack : Option V) : List (Con V D) :=
  match slack with
  | none => []
  | some v => [.le false ⟨[(HV.empty, 1)], none⟩ ⟨slackPow (some v) 1, none⟩]

/-- One of `sgpconstraints`: a signomial that is meant to be at most zero (`SignomialInequality`) or zero (`SingleSignomialEquality`,
gpkit/nomials/math.py 562 and 672). -/
structure Sg (V D : Type) extends Nomial V ℝ D where
  /-- whether it is an equality -/
  equality : Bool

/-- The approximations of one of them at a point (gpkit/constraints/sgp.py 81 and 224). -/
noncomputable def approxOf (feastol : ℝ) (vunits : V → Option (UnitQ D ℝ)) (ord : Orders V ℝ) (setord : List V → List V) (x0 : PyDict V ℝ)
    (sig : Sg V D) : Except Err (List (PyDict (HV V ℝ) ℝ)) :=
  if sig.equality then eqApprox feastol vunits ord setord x0 sig.toNomial else Guess.approx feastol vunits ord setord x0 sig.toNomial

/-- What stays the same during `localsolve`. -/
structure Setup (V D : Type) where
  /-- `feastol` of constraints -/
  feastol : ℝ
  /-- units of variables -/
  vunits : V → Option (UnitQ D ℝ)
  /-- orders of sets -/
  ord : Orders V ℝ
  /-- order of sets of variables -/
  setord : List V → List V
  /-- the slack variable, absent without `use_pccp` -/
  slack : Option V
  /-- `pccp_penalty` -/
  penalty : ℝ
  /-- `substitutions` -/
  fixed : PyDict V ℝ
  /-- `cost` as given -/
  cost : NMap V ℝ D
  /-- the constraints of the model that are valid in a geometric program -/
  cons : List (Con V D)
  /-- `sgpconstraints` -/
  sigs : List (Sg V D)

/-- The parts of a `SequentialGeometricProgram` that change. -/
structure Sp (V : Type) where
  /-- `self._gp` and `self.a_idxs` -/
  prog : SGP.Prog V ℝ
  /-- `self._gp.x0` and `self.sgpvks` -/
  guess : Guess.Sgp V ℝ
  /-- `len(self.approxconstraints)` -/
  nsp : Nat

/-- `cost *= self.slack**pccp_penalty` (gpkit/constraints/sgp.py 66). -/
noncomputable def Setup.slackCost (S : Setup V D) : NMap V ℝ D := ⟨Nomial.mulTerms S.cost.terms (slackPow S.slack S.penalty), S.cost.units⟩

open Classical in
/-- The constructor (gpkit/constraints/sgp.py 52-102). -/
noncomputable def Setup.init (S : Setup V D) : Except Err (Sp V) :=
  if S.cost.terms.any (fun t => decide (t.2 ≤ 0)) then .error .invalidPosynomial
  else if S.sigs.isEmpty then .error .unnecessarySGP
  else do
  let forms ← S.sigs.mapM (approxOf S.feastol S.vunits S.ord S.setord S.fixed)
  let H ← hmaps S.feastol S.slackCost (forms.flatten.map (approxCon S.slack) ++ (slackCons S.slack ++ S.cons)) S.fixed S.ord
  pure ⟨SGP.initProg forms.flatten.length H, .ofForms S.setord S.slack S.fixed forms.flatten, forms.flatten.length⟩

/-- `approxc.unsubbed = [Posynomial(hmaplt1)/self.slack]` and `hmap, = approxc.as_hmapslt1(self._gp.substitutions)`
(gpkit/constraints/sgp.py 226-228) for the form with position `i`. -/
noncomputable def Setup.updateForm (S : Setup V D) (nsp : Nat) (h : PyDict (HV V ℝ) ℝ) (i : Nat) : Except Err (Nat × GP.Hmap V ℝ) :=
  if i < nsp then do
    let fs ← (asHmapslt1 S.feastol [Nomial.mulTerms h (slackPow S.slack (-1))] S.fixed S.ord {}).1
    match fs with
    | [f] => .ok (i + 1, ⟨f, false⟩)
    | _ => .error .valueError
  else .error .indexError

/-- The rest of `gp(x0)` (gpkit/constraints/sgp.py 222-250), once `self._gp.x0` is set. -/
noncomputable def Setup.update (S : Setup V D) (s : Sp V) : Except Err (Sp V) := do
  let forms ← S.sigs.mapM (approxOf S.feastol S.vunits S.ord S.setord s.guess.x0)
  let us ← forms.flatten.zipIdx.mapM (fun hi => S.updateForm s.nsp hi.1 hi.2)
  let prog ← SGP.replaceAll s.prog us
  pure { s with prog := prog }

/-- `not x0` (gpkit/constraints/sgp.py 217). -/
def falsy : Option (Guess.Arg V N ℝ) → Bool
  | none => true
  | some (.plain d) => d.isEmpty
  | some (.keydict d) => d.isEmpty

/-- `gp(x0, cleanx0=True)` (gpkit/constraints/sgp.py 215-251). -/
noncomputable def Setup.gp (S : Setup V D) (s : Sp V) (x0 : Option (Guess.Arg V N ℝ)) : Except Err (Sp V) :=
  if falsy x0 then .ok s
  else do
    let g ← s.guess.gp x0 true
    S.update { s with guess := g }

/-- The attributes of `self._gp` as data of a program. -/
def Sp.data (s : Sp V) : GP.Data V ℝ := { s.prog.gen with cs := s.prog.cs, exps := s.prog.exps }

/-- `dict(zip(gp.varlocs, np.exp(solver_out["primal"])))` (gpkit/constraints/sgp.py 162). -/
noncomputable def Sp.point (s : Sp V) (out : SolverOut) : PyDict V ℝ := (s.prog.gen.varlocs.map (·.1)).zip (out.primal.map Real.exp)

/-- A pass of the loop of `localsolve` (gpkit/constraints/sgp.py 152-159). `optimize` gets the data and the matrix. -/
noncomputable def Setup.pass (S : Setup V D) (optimize : GP.Data V ℝ → GP.Coot ℝ → Except Err SolverOut) (s : Sp V) (x0 : Option (Guess.Arg V N ℝ)) :
    Except Err (Sp V × SolverOut) := do
  let s ← S.gp s x0
  let out ← optimize s.data s.prog.A
  pure (s, out)

/-- The program and the output of the solver after pass number `n`, counted from zero (gpkit/constraints/sgp.py 145-162). -/
noncomputable def Setup.passes (S : Setup V D) (optimize : GP.Data V ℝ → GP.Coot ℝ → Except Err SolverOut) (s : Sp V) (x0 : Option (Guess.Arg V N ℝ)) :
    Nat → Except Err (Sp V × SolverOut)
  | 0 => S.pass optimize s x0
  | n + 1 => do
    let so ← S.passes optimize s x0 n
    S.pass optimize so.1 (some (Guess.ofSolve (N := N) (so.1.point so.2)))

/-- The slack variable in the result (gpkit/constraints/sgp.py 187-205). The second component says whether slack was left, which is warned about
unless `verbosity` is less than zero. -/
noncomputable def dropSlack (eps : ℝ) (slack : Option V) (r : Result V) : Except Err (Result V × Bool) :=
  match slack with
  | none => .ok (r, false)
  | some v =>
    match r.vars.get? v with
    | none => .error .keyError
    | some c => if c - 1 ≤ eps then .ok (⟨r.cost, r.free.del v, r.vars.del v⟩, false) else .ok (r, true)

/-- What `localsolve` returns (gpkit/constraints/sgp.py 104-206): the result, whether the check of the solution passed, and whether slack was left. At the limit
of iterations `Infeasible` is raised, the parent class of `PrimalInfeasible`. -/
noncomputable def Setup.localsolve (S : Setup V D) (optimize : GP.Data V ℝ → GP.Coot ℝ → Except Err SolverOut) (eps reltol tol abstol : ℝ) (lim : Nat)
    (warns : Bool) (s : Sp V) (x0 : Option (Guess.Arg V N ℝ)) : Except Err (Result V × Bool × Bool) :=
  match SGP.localsolve eps reltol lim warns (fun n => (S.passes optimize s x0 n).toOption.map (fun so => so.2.objective)) with
  | some (.done st) => do
    let so ← S.passes optimize s x0 (st.gps - 1)
    let rb ← generateResult so.1.data so.2 S.fixed tol abstol so.1.prog.A
    let rw ← dropSlack eps S.slack rb.1
    pure (rw.1, rb.2, rw.2)
  | some (.limit _) => .error .primalInfeasible
  | some (.failed st) => do
    let _ ← S.passes optimize s x0 st.gps
    .error .runtimeWarning
  | none => .error .runtimeWarning

end SeqGP
end Verif
