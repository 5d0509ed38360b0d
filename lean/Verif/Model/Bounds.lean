import Verif.Model.GP

/-!
# Missing bounds

Models `GeometricProgram.check_bounds` (gpkit/constraints/gp.py 93-118), `gen_meq_bounds` (403-440) and `fulfill_meq_bounds` (443-467).

Python sets have no defined iteration order. Wherever the code iterates over a set, the order is `ord n l` for the elements `l`, where
`n` identifies the place and time; theorems hold for every `ord` that returns a permutation.
-/

namespace Verif

/-- `"upper"` and `"lower"`. -/
inductive Side where
  /-- upper bound -/
  | upper
  /-- lower bound -/
  | lower
  deriving DecidableEq

/-- The other side. -/
def Side.flip : Side → Side
  | .upper => .lower
  | .lower => .upper

/-- A bound: a variable and a side. -/
abbrev Bd (V : Type) := V × Side

namespace GP
variable {V K : Type} [DecidableEq V] [Field K] [LinearOrder K]

/-- `meq_bounds`: for each bound the sets of bounds of which each would suffice. -/
abbrev Meq (V : Type) := PyDict (Bd V) (List (List (Bd V)))

/-- Bounds not given by inequalities (gpkit/constraints/gp.py 95-109). The `break` only saves time. -/
def ineqMissing (d : Data V K) : List (Bd V) :=
  d.varlocs.flatMap (fun vl =>
    (if vl.2.any (fun i => decide (i ∉ d.meqAll) && decide (0 < d.expOf i vl.1)) then [] else [(vl.1, Side.upper)]) ++
    (if vl.2.any (fun i => decide (i ∉ d.meqAll) && !decide (0 < d.expOf i vl.1)) then [] else [(vl.1, Side.lower)]))

/-- `meq_bounds[b].add(needed)` for a `defaultdict(set)` of frozensets. -/
def addCond (meq : Meq V) (b : Bd V) (needed : List (Bd V)) : Meq V :=
  let old := (meq.get? b).getD []
  meq.set b (if old.any (fun c => c.isPerm needed) then old else old ++ [needed])

/-- The body of the loops over bounds (gpkit/constraints/gp.py 428-439); `ub` is the set of which all but the bound's own other side
is needed. -/
def needStep (ub : List (Bd V)) (s : List (Bd V) × Meq V) (b : Bd V) : List (Bd V) × Meq V :=
  let needed := ub.filter (fun c => c ≠ (b.1, b.2.flip))
  if needed ≠ [] then (s.1, addCond s.2 b needed) else (s.1.erase b, s.2)

/-- The bounds on a given side, for exponents of a given sign, that are missing (gpkit/constraints/gp.py 408-418). -/
def missSet (missing : List (Bd V)) (e : HV V K) (pos : Bool) (side : Side) : List (Bd V) :=
  (e.items.filter (fun kx => decide ((kx.1, side) ∈ missing) && (decide (0 < kx.2) == pos))).map (fun kx => (kx.1, side))

/-- The body of the loop over equalities (gpkit/constraints/gp.py 406-439). -/
def meqStep (ord : Nat → List (Bd V) → List (Bd V)) (exps : List (HV V K)) (s : List (Bd V) × Meq V) (i : Nat) :
    List (Bd V) × Meq V :=
  let e := (exps[i]?).getD HV.empty
  let pU := missSet s.1 e true .upper
  let nU := missSet s.1 e false .upper
  let pL := missSet s.1 e true .lower
  let nL := missSet s.1 e false .lower
  let pub := nU ++ pL
  let nub := pU ++ nL
  let s := (ord (4 * i) pU).foldl (needStep pub) s
  let s := (ord (4 * i + 1) nU).foldl (needStep nub) s
  let s := (ord (4 * i + 2) pL).foldl (needStep nub) s
  (ord (4 * i + 3) nL).foldl (needStep pub) s

/-- `gen_meq_bounds` (gpkit/constraints/gp.py 403-440). `rows` is `meq_idxs.first_half` in its iteration order. -/
def genMeqBounds (ord : Nat → List (Bd V) → List (Bd V)) (missing : List (Bd V)) (exps : List (HV V K)) (rows : List Nat) :
    List (Bd V) × Meq V :=
  rows.foldl (meqStep ord exps) (missing, [])

/-- State of `fulfill_meq_bounds`. -/
structure Ful (V : Type) where
  /-- `still_alive` -/
  alive : Bool
  /-- keys of `missingbounds` -/
  missing : List (Bd V)
  /-- `meq_bounds` -/
  meq : Meq V

/-- The body of the inner loop (gpkit/constraints/gp.py 449-457). -/
def fulStep (s : Ful V) (b : Bd V) : Ful V :=
  if b ∉ s.missing then { s with meq := s.meq.del b }
  else if ((s.meq.get? b).getD []).any (fun c => !c.any (fun b' => decide (b' ∈ s.missing))) then
    ⟨true, s.missing.erase b, s.meq.del b⟩
  else s

/-- One round of the loop (gpkit/constraints/gp.py 447-457). -/
def fulRound (ord : Nat → List (Bd V) → List (Bd V)) (n : Nat) (missing : List (Bd V)) (meq : Meq V) : Ful V :=
  (ord n (meq.map (·.1))).foldl fulStep ⟨false, missing, meq⟩

omit [DecidableEq V] in
theorem fulStep_alive [DecidableEq V] (l : List (Bd V)) (s : Ful V) (n : Nat) (h : s.missing.length ≤ n)
    (ha : s.alive = true → s.missing.length < n) :
    (l.foldl fulStep s).missing.length ≤ n ∧ ((l.foldl fulStep s).alive = true → (l.foldl fulStep s).missing.length < n) := by
  induction l generalizing s with
  | nil => exact ⟨h, ha⟩
  | cons b l ih =>
    rw [List.foldl_cons]
    by_cases h1 : b ∉ s.missing
    · have : fulStep s b = { s with meq := s.meq.del b } := by unfold fulStep; rw [if_pos h1]
      rw [this]; exact ih _ h ha
    · by_cases h2 : ((s.meq.get? b).getD []).any (fun c => !c.any (fun b' => decide (b' ∈ s.missing))) = true
      · have : fulStep s b = ⟨true, s.missing.erase b, s.meq.del b⟩ := by unfold fulStep; rw [if_neg h1, if_pos h2]
        rw [this]
        have hb : b ∈ s.missing := not_not.1 h1
        have hl := List.length_erase_of_mem hb
        have hp := List.length_pos_of_mem hb
        refine ih _ ?_ ?_
        · show (s.missing.erase b).length ≤ n; omega
        · intro _; show (s.missing.erase b).length < n; omega
      · have : fulStep s b = s := by unfold fulStep; rw [if_neg h1, if_neg h2]
        rw [this]; exact ih _ h ha

/-- The loop (gpkit/constraints/gp.py 445-457). It ends since a round that leaves `still_alive` set has removed a missing bound. -/
def fulLoop (ord : Nat → List (Bd V) → List (Bd V)) (n : Nat) (missing : List (Bd V)) (meq : Meq V) : List (Bd V) × Meq V :=
  if h : (fulRound ord n missing meq).alive = true then
    fulLoop ord (n + 1) (fulRound ord n missing meq).missing (fulRound ord n missing meq).meq
  else ((fulRound ord n missing meq).missing, (fulRound ord n missing meq).meq)
termination_by missing.length
decreasing_by exact (fulStep_alive _ ⟨false, missing, meq⟩ missing.length (le_refl _) (by simp)).2 h

/-- The body of the loop that shortens conditions (gpkit/constraints/gp.py 460-465). -/
def hintStep (missing : List (Bd V)) (conds : List (List (Bd V))) (c : List (Bd V)) : List (List (Bd V)) :=
  let conds := conds.erase c
  let new := c.filter (fun b => decide (b ∈ missing))
  if new ≠ [] ∧ ¬ conds.any (fun c' => c'.all (fun b => decide (b ∈ new))) = true then conds ++ [new] else conds

/-- The reported missing bounds with their hints: `none` stands for `"."`, otherwise the alternatives of which each would bound the
variable (gpkit/constraints/gp.py 458-467). `ordc` is the order of a set of conditions. -/
def hints (ordc : List (List (Bd V)) → List (List (Bd V))) (missing : List (Bd V)) (meq : Meq V) : PyDict (Bd V) (Option (List (List (Bd V)))) :=
  meq.foldl (fun out bc => out.set bc.1 (some ((ordc bc.2).foldl (hintStep missing) bc.2))) (missing.map (fun b => (b, none)))

/-- `check_bounds` without the exception (gpkit/constraints/gp.py 93-118). -/
def checkBounds (ord : Nat → List (Bd V) → List (Bd V)) (ordc : List (List (Bd V)) → List (List (Bd V))) (rows : List Nat) (d : Data V K) :
    PyDict (Bd V) (Option (List (List (Bd V)))) :=
  let missing := ineqMissing d
  if missing = [] then []
  else
    let s := genMeqBounds ord missing d.exps rows
    let s := fulLoop ord (4 * d.exps.length) s.1 s.2
    hints ordc s.1 s.2

/-- `check_bounds` with `err_on_missing_bounds`: `true` if `UnboundedGP` is raised (gpkit/constraints/gp.py 114-117). -/
def boundsError (ord : Nat → List (Bd V) → List (Bd V)) (ordc : List (List (Bd V)) → List (List (Bd V))) (rows : List Nat)
    (d : Data V K) (err : Bool) : Bool :=
  !(checkBounds ord ordc rows d).isEmpty && err

end GP
end Verif
