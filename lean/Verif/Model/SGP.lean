import Verif.Model.GP

/-!
# Sequential geometric programs

Models the in-place update of the program of a `SequentialGeometricProgram` and the loop of `localsolve`
(gpkit/constraints/sgp.py 96-250).
-/

namespace Verif
namespace SGP
open GP

section Update
variable {V K : Type} [DecidableEq V] [Field K] [LinearOrder K]

/-- The parts of a `SequentialGeometricProgram` that `gp` reads and changes: the attributes of `self._gp` and `self.a_idxs`. -/
structure Prog (V K : Type) where
  /-- what `gen` stored and `gp` leaves alone: `m_idxs`, `p_idxs`, `varlocs`, `varidxs`, `meq_idxs` -/
  gen : Data V K
  /-- `_gp.hmaps` -/
  hmaps : List (Hmap V K)
  /-- `_gp.cs` -/
  cs : List K
  /-- `_gp.exps` -/
  exps : List (HV V K)
  /-- `_gp.A` -/
  A : Coot K
  /-- `a_idxs`, a `defaultdict(list)` -/
  aIdxs : Nat → List Nat

/-- The end of `__init__` (gpkit/constraints/sgp.py 96-101), for a program whose first `nsp` constraints are the approximations. The
second comparison is `<=`, so the first row after the approximations is noted too. -/
def initProg (nsp : Nat) (hs : List (Hmap V K)) : Prog V K :=
  let d := genLoop hs
  let costMons := (ks hs).headD 0
  let spMons := ((ks hs).take (1 + nsp)).sum
  { gen := d, hmaps := hs, cs := d.cs, exps := d.exps, A := d.A
    aIdxs := fun p => (d.A.zipIdx.filter (fun tr => costMons ≤ tr.1.1 ∧ tr.1.1 ≤ spMons ∧ d.pIdxs[tr.1.1]? = some p)).map (·.2) }

/-- `varidxs[var]` (gpkit/constraints/gp.py 157): `none` is a `KeyError`. -/
def colOf (d : Data V K) (v : V) : Option Nat := if v ∈ d.varlocs.map (·.1) then some (d.varidx v) else none

/-- The matrix, the entries that can still be overwritten, and the entries added so far. -/
structure Fill (K : Type) where
  /-- `A` -/
  A : Coot K
  /-- `a_idxs`, the local list -/
  free : List Nat
  /-- what was appended to `self.a_idxs[p_idx]` -/
  added : List Nat

/-- The body of the loop over one exponent vector (gpkit/constraints/sgp.py 236-246). -/
def entryStep (col : V → Option Nat) (row : Nat) (s : Fill K) (vx : V × K) : Except Err (Fill K) :=
  match col vx.1 with
  | none => .error .keyError
  | some j =>
    match s.free.getLast? with
    | some r => .ok ⟨s.A.set r (row, j, vx.2), s.free.dropLast, s.added⟩
    | none => .ok ⟨s.A ++ [(row, j, vx.2)], [], s.added ++ [s.A.length]⟩

/-- The lists `exps` and `cs` with the matrix. -/
structure Rows (V K : Type) where
  /-- `exps` -/
  exps : List (HV V K)
  /-- `cs` -/
  cs : List K
  /-- the matrix -/
  fill : Fill K

/-- The body of the loop over terms (gpkit/constraints/sgp.py 233-246); `tn` is a term with its position. -/
def termStep (col : V → Option Nat) (m : Nat) (s : Rows V K) (tn : (HV V K × K) × Nat) : Except Err (Rows V K) :=
  if m + tn.2 < s.exps.length ∧ m + tn.2 < s.cs.length then
    (tn.1.1.items.foldlM (entryStep col (m + tn.2)) s.fill).map
      (fun f => ⟨s.exps.set (m + tn.2) tn.1.1, s.cs.set (m + tn.2) tn.1.2, f⟩)
  else .error .indexError

/-- `A.row[r] = A.col[r] = A.data[r] = 0` for the entries left over (gpkit/constraints/sgp.py 247-250). -/
def zeroOut (A : Coot K) (free : List Nat) : Coot K := free.foldl (fun A r => A.set r (0, 0, 0)) A

/-- One approximation is replaced (gpkit/constraints/sgp.py 228-250), where `p` is `p_idx` after the increment. -/
def replace (p : Nat) (h : Hmap V K) (s : Prog V K) : Except Err (Prog V K) :=
  if p < s.hmaps.length then
    match s.gen.mIdxs[p]? with
    | none => .error .indexError
    | some mm =>
      (h.terms.zipIdx.foldlM (termStep (colOf s.gen) mm.1) ⟨s.exps, s.cs, s.A, s.aIdxs p, []⟩).map (fun r =>
        { gen := s.gen
          hmaps := s.hmaps.set p h
          cs := r.cs
          exps := r.exps
          A := zeroOut r.fill.A r.fill.free
          aIdxs := fun q => if q = p then s.aIdxs p ++ r.fill.added else s.aIdxs q })
  else .error .indexError

/-- The updates of any number of calls of `gp` (gpkit/constraints/sgp.py 215-250). -/
def replaceAll (s : Prog V K) (us : List (Nat × Hmap V K)) : Except Err (Prog V K) :=
  us.foldlM (fun s u => replace u.1 u.2 s) s

end Update

section Loop
variable {K : Type} [Field K] [LinearOrder K]

/-- The state of the loop of `localsolve` (gpkit/constraints/sgp.py 144-179). -/
structure Local (K : Type) where
  /-- `len(self.gps)` -/
  gps : Nat
  /-- `cost` -/
  cost : Option K
  /-- `rel_improvement` -/
  rel : Option K
  /-- whether a rising cost was warned about -/
  warned : Bool
deriving DecidableEq

/-- How `localsolve` can end. -/
inductive Outcome (K : Type) where
  /-- it leaves the loop -/
  | done (s : Local K)
  /-- it raises `Infeasible` because of the limit -/
  | limit (s : Local K)
  /-- a solve raises -/
  | failed (s : Local K)
deriving DecidableEq

/-- One pass of the loop (gpkit/constraints/sgp.py 145-179). `solve n` is the cost of solve number `n`, or `none` if it raises; `warns`
is `verbosity > -1`. -/
def localStep (eps reltol : K) (lim : Nat) (warns : Bool) (solve : Nat → Option K) (s : Local K) : Outcome K ⊕ Local K :=
  if s.rel.all (fun r => decide (reltol < r)) then
    if s.gps > lim then .inl (.limit s)
    else
      match solve s.gps with
      | none => .inl (.failed s)
      | some c =>
        match s.cost with
        | none => .inr { s with gps := s.gps + 1, cost := some c }
        | some p =>
          if warns ∧ p + eps < c * (1 - eps) then .inr ⟨s.gps + 1, none, none, true⟩
          else .inr ⟨s.gps + 1, some c, some ((p - c) / (p + c)), s.warned⟩
  else .inl (.done s)

/-- The loop, for at most `n` passes. `none` means it has not ended by then. -/
def localLoop (eps reltol : K) (lim : Nat) (warns : Bool) (solve : Nat → Option K) : Nat → Local K → Option (Outcome K)
  | 0, _ => none
  | n + 1, s =>
    match localStep eps reltol lim warns solve s with
    | .inl o => some o
    | .inr s => localLoop eps reltol lim warns solve n s

/-- `localsolve` (gpkit/constraints/sgp.py 135-179): every pass but the last makes one solve, so this many passes are enough
(`localsolve_ends`). -/
def localsolve (eps reltol : K) (lim : Nat) (warns : Bool) (solve : Nat → Option K) : Option (Outcome K) :=
  localLoop eps reltol lim warns solve (lim + 2) ⟨0, none, none, false⟩

end Loop
end SGP
end Verif
