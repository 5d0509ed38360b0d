import Verif.Model.Nomial

/-!
# The data of a geometric program

Models `GeometricProgram.gen` (gpkit/constraints/gp.py 120-162) and `CootMatrix` (gpkit/small_classes.py 41-67).
-/

namespace Verif
namespace GP
variable {V K : Type} [DecidableEq V] [Field K] [LinearOrder K]

/-- One `hmap <= 1` handed to a `GeometricProgram`: its terms and the tag `from_meq` (gpkit/nomials/math.py 538-543). -/
structure Hmap (V K : Type) where
  /-- terms in iteration order -/
  terms : PyDict (HV V K) K
  /-- `getattr(hmap, "from_meq", False)` -/
  fromMeq : Bool := false

/-- `CootMatrix` (gpkit/small_classes.py 41-46): the lists `row`, `col` and `data`, here as one list of triples. -/
abbrev Coot (K : Type) := List (Nat × Nat × K)

/-- The attributes set by `gen`. `meqAll` and `firstHalf` are sets of increasing indices, listed in order of insertion. -/
structure Data (V K : Type) where
  /-- `m_idxs`: slices `[start, stop)` -/
  mIdxs : List (Nat × Nat) := []
  /-- `p_idxs` -/
  pIdxs : List Nat := []
  /-- `cs` -/
  cs : List K := []
  /-- `exps` -/
  exps : List (HV V K) := []
  /-- `varlocs` -/
  varlocs : PyDict V (List Nat) := []
  /-- `meq_idxs.all` -/
  meqAll : List Nat := []
  /-- `meq_idxs.first_half` -/
  firstHalf : List Nat := []
  /-- the entries of `A` for terms without variables -/
  trip : Coot K := []

/-- `varlocs[var].append(m_idx)` for a `defaultdict(list)` (gpkit/constraints/gp.py 153-154). -/
def locAppend (m : Nat) (vl : PyDict V (List Nat)) (v : V) : PyDict V (List Nat) :=
  vl.set v ((vl.get? v).getD [] ++ [m])

/-- The body of the loop over exponents (gpkit/constraints/gp.py 148-155). The state is `(m_idx, varlocs, triples)`. -/
def expStep (s : Nat × PyDict V (List Nat) × Coot K) (e : HV V K) : Nat × PyDict V (List Nat) × Coot K :=
  (s.1 + 1, (e.items.map (·.1)).foldl (locAppend s.1) s.2.1,
    if e.items.isEmpty then s.2.2 ++ [(s.1, 0, 0)] else s.2.2)

/-- Bookkeeping of equality rows (gpkit/constraints/gp.py 142-145). -/
def noteMeq (m : Nat) (all first : List Nat) : List Nat × List Nat :=
  let all := if m ∈ all then all else all ++ [m]
  (all, if all.length > 2 * first.length then (if m ∈ first then first else first ++ [m]) else first)

/-- The body of the loop over posynomials (gpkit/constraints/gp.py 139-155). `m_idx` is the number of terms so far. -/
def genStep (d : Data V K) (h : Hmap V K) : Data V K :=
  let m := d.exps.length
  let p := d.mIdxs.length
  let n := h.terms.length
  let meq := if h.fromMeq then noteMeq m d.meqAll d.firstHalf else (d.meqAll, d.firstHalf)
  let s := (h.terms.map (·.1)).foldl expStep (m, d.varlocs, d.trip)
  { mIdxs := d.mIdxs ++ [(m, m + n)]
    pIdxs := d.pIdxs ++ List.replicate n p
    cs := d.cs ++ h.terms.map (·.2)
    exps := d.exps ++ h.terms.map (·.1)
    varlocs := s.2.1
    meqAll := meq.1
    firstHalf := meq.2
    trip := s.2.2 }

/-- The loop of `gen` (gpkit/constraints/gp.py 139-155). -/
def genLoop (hs : List (Hmap V K)) : Data V K := hs.foldl genStep {}

/-- `varidxs` (gpkit/constraints/gp.py 157). -/
def Data.varidx (d : Data V K) (v : V) : Nat := (d.varlocs.map (·.1)).idxOf v

/-- `self.exps[i][var]` for an index stored in `varlocs[var]`, where both lookups succeed. -/
def Data.expOf (d : Data V K) (i : Nat) (v : V) : K := (((d.exps[i]?).getD HV.empty).get? v).getD 0

/-- The entries of the columns of the variables (gpkit/constraints/gp.py 158-161). -/
def Data.colEntries (d : Data V K) : Coot K :=
  d.varlocs.zipIdx.flatMap (fun vj => vj.1.2.map (fun i => (i, vj.2, d.expOf i vj.1.1)))

/-- `self.A` (gpkit/constraints/gp.py 162). -/
def Data.A (d : Data V K) : Coot K := d.trip ++ d.colEntries

/-- `self.k` (gpkit/constraints/gp.py 133). -/
def ks (hs : List (Hmap V K)) : List Nat := hs.map (fun h => h.terms.length)

end GP
end Verif
