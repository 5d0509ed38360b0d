import Verif.Model.Solve
import Verif.Lemmas.PyDict
import Mathlib.Tactic.SplitIfs

/-! Calling solvers: C37. -/

set_option linter.unusedSectionVars false

namespace Verif
open PyDict
namespace Slv

variable {O Val Out R : Type} [BEq O] [LawfulBEq O]

theorem get?_update (d e : PyDict O Val) (he : WF e) (o : O) : get? (update d e) o = (get? e o).or (get? d o) := by
  induction e generalizing d with
  | nil => rfl
  | cons kv e ih =>
    obtain ⟨k, v⟩ := kv
    show get? (update (d.set k v) e) o = _
    rw [ih _ (wf_cons.1 he).2, get?_cons, get?_set]
    by_cases h : (k == o) = true
    · rw [if_pos h, if_pos h]
      have : get? e o = none := by
        rw [get?_eq_none_iff]
        intro p hp
        rw [← beq_congr_right h]
        have := (wf_cons.1 he).1 p hp
        rw [Bool.eq_false_iff] at this ⊢
        intro h'
        exact this (by rw [beq_iff_eq] at h' ⊢; exact h'.symm)
      rw [this]; rfl
    · rw [if_neg h, if_neg h]

/-- What the options of a call are to be: its own, and for the others the value in the defaults. -/
def Overridden (defaults : PyDict String (PyDict O Val)) (name : String) (kwargs args : PyDict O Val) : Prop :=
  ∀ o, get? args o = (get? kwargs o).or (((get? defaults name).bind (fun d => get? d o)))

/-- The last value that earlier calls gave for an option of a solver. -/
def lastGiven (name : String) (o : O) : List (String × PyDict O Val) → Option Val
  | [] => none
  | (n, kw) :: l => (lastGiven name o l).or (if n = name then get? kw o else none)

theorem filter_rstrip (s : List Char) : (rstrip s).filter (· != '\n') = s.filter (· != '\n') := by
  have key : ∀ s : List Char, (s.dropWhile (· == '\n')).filter (· != '\n') = s.filter (· != '\n') := by
    intro s
    induction s with
    | nil => rfl
    | cons c s ih =>
      rw [List.dropWhile_cons]
      by_cases h : (c == '\n') = true
      · rw [if_pos h, ih, List.filter_cons, if_neg (by simpa using h)]
      · rw [if_neg h]
  unfold rstrip
  rw [List.filter_reverse, key, ← List.filter_reverse, List.reverse_reverse]

theorem filter_joinLines : ∀ l : List (List Char), (joinLines l).filter (· != '\n') = l.flatten.filter (· != '\n')
  | [] => rfl
  | [a] => by simp [joinLines]
  | a :: b :: l => by
    rw [joinLines, List.filter_append, List.filter_cons, if_neg (by decide), filter_joinLines (b :: l), List.flatten_cons (l := a), List.filter_append]

theorem joinLines_logged (writes : List (List Char)) : (joinLines (logged writes)).filter (· != '\n') = writes.flatten.filter (· != '\n') := by
  rw [filter_joinLines]
  unfold logged
  induction writes with
  | nil => rfl
  | cons w l ih =>
    rw [List.filter_cons]
    split_ifs with h
    · rw [List.map_cons, List.flatten_cons, List.flatten_cons, List.filter_append, List.filter_append, filter_rstrip, ih]
    · have : w = ['\n'] := by simpa using h
      rw [ih, this, List.flatten_cons, List.filter_append]
      rfl

/-- The calls of solvers, with their own options, that calls of `solve` make. -/
def given (impl : String → Solver O Val Out) (setting : Option String) : List (Call O Val Out R) → List (String × PyDict O Val)
  | [] => []
  | c :: cs => match getSolver impl setting c.solver with
    | .ok (n, _) => (n, c.kwargs) :: given impl setting cs
    | .error _ => given impl setting cs

/-- `solve` ends without `debug`. -/
def Quiet (c : Call O Val Out R) : Prop := c.verbosity ≤ 0 ∨ c.fast = false

theorem quiet_world {impl : String → Solver O Val Out} {setting : Option String} {w : World O Val} {c : Call O Val Out R}
    {name : String} {f : Solver O Val Out} (hs : getSolver impl setting c.solver = .ok (name, f)) (hd : Quiet c) :
    (solve impl setting w c).world = { w with
      defaults := (mkArgs w.defaults name c.kwargs).2
      passed := w.passed ++ [(name, (mkArgs w.defaults name c.kwargs).1)]
      echoed := w.echoed ++ echo (c.verbosity - 2) (f (mkArgs w.defaults name c.kwargs).1).1 } := by
  unfold solve
  rw [hs]
  dsimp only
  split
  · rfl
  · split_ifs
    · unfold onInfeasible
      rw [if_neg (by rcases hd with h | h <;> simp [h])]
      split_ifs <;> rfl
    all_goals rfl

theorem error_world {impl : String → Solver O Val Out} {setting : Option String} {w : World O Val} {c : Call O Val Out R} {e : Exc}
    (hs : getSolver impl setting c.solver = .error e) : (solve impl setting w c).world = w := by
  unfold solve
  rw [hs]

theorem mkArgs_args (defaults : PyDict String (PyDict O Val)) (name : String) {kwargs : PyDict O Val} (hk : WF kwargs) :
    Overridden defaults name kwargs (mkArgs defaults name kwargs).1 := by
  intro o
  unfold mkArgs
  cases h : get? defaults name with
  | none =>
    simp only [Option.bind_none, Option.or_none]
    rw [get?_update _ _ hk]
    simp
  | some d =>
    simp only [Option.bind_some]
    rw [get?_update _ _ hk]

/-- What a call leaves in the defaults. -/
theorem mkArgs_defaults (defaults : PyDict String (PyDict O Val)) (name n : String) {kwargs : PyDict O Val} (hk : WF kwargs) (o : O) :
    (get? (mkArgs defaults name kwargs).2 n).bind (fun d => get? d o) =
      (if name = n ∧ (get? defaults n).isSome = true then get? kwargs o else none).or ((get? defaults n).bind (fun d => get? d o)) ∧
    (get? (mkArgs defaults name kwargs).2 n).isSome = (get? defaults n).isSome := by
  unfold mkArgs
  by_cases hn : name = n
  · subst hn
    cases h : get? defaults name with
    | none => simp [h]
    | some d =>
      dsimp only
      rw [get?_set_self]
      simp [get?_update _ _ hk]
  · cases h : get? defaults name with
    | none => simp [hn]
    | some d =>
      dsimp only
      rw [get?_set, if_neg (by simpa using hn)]
      simp [hn]

theorem solves_defaults (impl : String → Solver O Val Out) (setting : Option String) (n : String) (o : O) :
    ∀ (cs : List (Call O Val Out R)) (w : World O Val), (∀ c ∈ cs, Quiet c ∧ WF c.kwargs) →
    (get? (solves impl setting w cs).defaults n).bind (fun d => get? d o) =
      (if (get? w.defaults n).isSome = true then lastGiven n o (given impl setting cs) else none).or ((get? w.defaults n).bind (fun d => get? d o)) ∧
    (get? (solves impl setting w cs).defaults n).isSome = (get? w.defaults n).isSome
  | [], w, _ => by simp [solves, given, lastGiven]
  | c :: cs, w, h => by
    have hc := h c (by simp)
    have ih := solves_defaults impl setting n o cs (solve impl setting w c).world (fun c hc => h c (by simp [hc]))
    have e : solves impl setting w (c :: cs) = solves impl setting (solve impl setting w c).world cs := rfl
    rw [e, ih.1, ih.2]
    cases hs : getSolver impl setting c.solver with
    | error e => rw [error_world hs]; simp [given, hs]
    | ok nf =>
      obtain ⟨name, f⟩ := nf
      rw [quiet_world hs hc.1]
      dsimp only
      obtain ⟨h1, h2⟩ := mkArgs_defaults w.defaults name n hc.2 o
      rw [h1, h2]
      refine ⟨?_, rfl⟩
      simp only [given, hs, lastGiven]
      cases hd : (get? w.defaults n).isSome with
      | false => simp
      | true =>
        simp only [if_true, and_true]
        rw [Option.or_assoc]

end Slv

section
open Slv
variable {O Val Out R : Type} [BEq O] [LawfulBEq O]

/-- C37, first part, exactly: after any solves, whatever came of them, a solver is given the call's own options, else for solvers with
defaults the last value any earlier call gave, else the default. -/
theorem C37_history_partial {impl : String → Solver O Val Out} {setting : Option String} {w : World O Val} {cs : List (Call O Val Out R)}
    {c : Call O Val Out R} {name : String} {f : Solver O Val Out} (hs : getSolver impl setting c.solver = .ok (name, f))
    (hq : ∀ c' ∈ cs, Quiet c' ∧ WF c'.kwargs) (hc : Quiet c ∧ WF c.kwargs) :
    ∃ args, (solves impl setting w (cs ++ [c])).passed = (solves impl setting w cs).passed ++ [(name, args)] ∧
      ∀ o, get? args o = ((get? c.kwargs o).or (if (get? w.defaults name).isSome = true then lastGiven name o (given impl setting cs) else none)).or
        ((get? w.defaults name).bind (fun d => get? d o)) := by
  refine ⟨(mkArgs (solves impl setting w cs).defaults name c.kwargs).1, ?_, ?_⟩
  · unfold solves
    rw [List.foldl_append]
    show (solve impl setting _ c).world.passed = _
    rw [quiet_world hs hc.1]
  · intro o
    rw [mkArgs_args _ _ hc.2 o, (solves_defaults impl setting name o cs w hq).1, Option.or_assoc]

/-- C37, first part, for solvers without defaults, and for options that no earlier solve gave: the options are the defaults overridden by
the call's own. -/
theorem C37_options_partial {impl : String → Solver O Val Out} {setting : Option String} {w : World O Val} {cs : List (Call O Val Out R)}
    {c : Call O Val Out R} {name : String} {f : Solver O Val Out} (hs : getSolver impl setting c.solver = .ok (name, f))
    (hq : ∀ c' ∈ cs, Quiet c' ∧ WF c'.kwargs) (hc : Quiet c ∧ WF c.kwargs)
    (hn : get? w.defaults name = none ∨ ∀ x ∈ given impl setting cs, x.1 = name → x.2 = []) :
    ∃ args, (solves impl setting w (cs ++ [c])).passed = (solves impl setting w cs).passed ++ [(name, args)] ∧
      Overridden w.defaults name c.kwargs args := by
  obtain ⟨args, h1, h2⟩ := C37_history_partial (w := w) hs hq hc
  refine ⟨args, h1, fun o => ?_⟩
  rw [h2 o]
  rcases hn with hn | hn
  · simp [hn]
  · have : ∀ l : List (String × PyDict O Val), (∀ x ∈ l, x.1 = name → x.2 = []) → lastGiven name o l = none := by
      intro l
      induction l with
      | nil => intro _; rfl
      | cons x l ih =>
        intro h
        obtain ⟨n, kw⟩ := x
        rw [lastGiven, ih (fun y hy => h y (by simp [hy]))]
        by_cases hx : n = name
        · have hk : kw = [] := h (n, kw) (by simp) hx
          rw [if_pos hx, hk]; rfl
        · rw [if_neg hx]; rfl
    rw [this _ hn]
    simp

/-- A custom solver, twice with different options. -/
def C37_call (kw : PyDict Nat Nat) (s : SolverArg Nat Nat Unit) : Call Nat Nat Unit Unit := ⟨s, 0, kw, true, none, fun _ => .ok ()⟩

example : ∃ args, (solves (fun _ _ => ([], .ok ())) none ⟨[("cvxopt", [(0, 7)])], .user 1, [], []⟩
    ([C37_call [(1, 5)] (.fn "mine" (fun _ => ([], .error .primal)))] ++ [C37_call [(2, 6)] (.named "cvxopt")])).passed =
    [("mine", [(1, 5)])] ++ [("cvxopt", args)] ∧ Overridden [("cvxopt", [(0, 7)])] "cvxopt" [(2, 6)] args :=
  C37_options_partial (name := "cvxopt") (f := fun _ => ([], .ok ())) rfl (by simp [C37_call, Quiet, WF]) (by simp [C37_call, Quiet, WF])
    (Or.inr (by simp [given, getSolver, pick, C37_call]))

/-- C37, first part, fails for cvxopt: an option given to one solve is passed to the next, which was given none. -/
theorem C37_options_fails : ∃ (w : World Nat Nat) (c c' : Call Nat Nat Unit Unit) (args : PyDict Nat Nat),
    get? w.defaults "cvxopt" = some [(0, 7)] ∧ c'.kwargs = [] ∧
    (solves (fun _ _ => ([], .ok ())) none w [c, c']).passed = [("cvxopt", c.kwargs.cons (0, 7)), ("cvxopt", args)] ∧
    ¬ Overridden w.defaults "cvxopt" c'.kwargs args :=
  ⟨⟨[("cvxopt", [(0, 7)])], .user 1, [], []⟩, C37_call [(1, 5)] (.named "cvxopt"), C37_call [] (.named "cvxopt"), [(0, 7), (1, 5)],
    rfl, rfl, by decide +kernel, fun h => absurd (h 1) (by decide +kernel)⟩

/-- C37 for standard output: after a solve, however it ends, `sys.stdout` is what it was (if `debug`, where it is called, sees to it). -/
theorem C37_stdout (impl : String → Solver O Val Out) (setting : Option String) (w : World O Val) (c : Call O Val Out R)
    (hd : ∀ d, c.debug = some d → ∀ w, (d w).1.stdout = w.stdout) : (solve impl setting w c).world.stdout = w.stdout := by
  unfold solve
  split
  · rfl
  · dsimp only
    split
    · rfl
    · split_ifs
      · unfold onInfeasible
        split_ifs
        · rfl
        · split
          · rename_i d h; rw [hd d h]
          · rfl
        · rfl
        · rfl
      all_goals rfl

/-- … also for a solver that is interrupted. -/
example : (solve (fun _ _ => ([], .error (.base 0))) none ⟨[], .user 1, [], []⟩ (C37_call [] (.named "cvxopt"))).world.stdout = .user 1 :=
  C37_stdout _ _ _ _ (fun d h => by simp [C37_call] at h)

/-- The class of exception that is documented for each way a solver can end, if `debug` is not run. -/
def documented : Exc → Option Exc
  | .primal => some .primal
  | .dual => some .dual
  | .unknown => some .unknown
  | .infeasible => some .infeasible
  | .license => some .license
  | .base n => some (.base n)
  | _ => some .unknown

/-- C37 for exceptions, for solvers that raise one of the three kinds of infeasibility, without `debug`: infeasibility and an invalid license
are passed on as what they are, an interrupt too, and everything else is an unknown infeasibility. A result is returned if there is one. -/
theorem C37_exceptions_partial {impl : String → Solver O Val Out} {setting : Option String} {w : World O Val} {c : Call O Val Out R}
    {name : String} {f : Solver O Val Out} (hs : getSolver impl setting c.solver = .ok (name, f)) (hq : Quiet c) :
    (∀ o, (f (mkArgs w.defaults name c.kwargs).1).2 = .ok o → (solve impl setting w c).result = c.finish o) ∧
    (∀ e, e ≠ .infeasible → (f (mkArgs w.defaults name c.kwargs).1).2 = .error e → ∃ e', documented e = some e' ∧
      (solve impl setting w c).result = .error e') := by
  unfold solve
  rw [hs]
  dsimp only
  constructor
  · intro o ho
    rw [ho]
  · intro e he hf
    rw [hf]
    have hn : ¬ (c.verbosity > 0 ∧ c.fast = true) := by unfold Quiet at hq; rcases hq with h | h <;> simp [h]
    unfold onInfeasible
    simp only [if_neg hn]
    cases e <;> first | exact (he rfl).elim | exact ⟨_, rfl, rfl⟩

/-- C37 for unknown solvers: a ValueError, and nothing changes. -/
theorem C37_unknown {impl : String → Solver O Val Out} {setting : Option String} {w : World O Val} {c : Call O Val Out R}
    (h : (∃ s, c.solver = .named s ∧ s ≠ "cvxopt" ∧ s ≠ "mosek_cli" ∧ s ≠ "mosek_conif") ∨ (∃ _ : setting = none, ∀ s, c.solver ≠ .named s ∧ ∀ n f, c.solver ≠ .fn n f)) :
    (solve impl setting w c).world = w ∧ (solve impl setting w c).result = .error .value := by
  have hg : getSolver impl setting c.solver = .error .value := by
    rcases h with ⟨s, h, h1, h2, h3⟩ | ⟨h, h'⟩
    · rw [h]
      show pick impl (.named s) = _
      simp [pick, h1, h2, h3]
    · cases hc : c.solver with
      | default => simp [getSolver, h]
      | named s => exact ((h' s).1 hc).elim
      | fn n f => exact ((h' "").2 n f hc).elim
  unfold solve
  rw [hg]
  exact ⟨rfl, rfl⟩

example : (solve (R := Unit) (fun _ _ => ([], .ok ())) (some "cvxopt") ⟨[], .user 1, [], []⟩ (C37_call [] (.named "ipopt"))).result = .error .value :=
  (C37_unknown (Or.inl ⟨"ipopt", rfl, by decide, by decide, by decide⟩)).2

/-- C37, which solver it is: the one named, the function given, or the one named in the settings. -/
theorem C37_solver (impl : String → Solver O Val Out) (setting : Option String) (s : String) (hs : s ∈ ["cvxopt", "mosek_cli", "mosek_conif"]) :
    getSolver impl setting (.named s) = .ok (s, impl s) ∧ getSolver impl (some s) .default = .ok (s, impl s) ∧
    ∀ n f, getSolver impl setting (.fn n f) = .ok (n, f) := by
  have h : s = "cvxopt" ∨ s = "mosek_cli" ∨ s = "mosek_conif" := by simpa using hs
  refine ⟨?_, ?_, fun _ _ => rfl⟩
  · show (if s = "cvxopt" ∨ s = "mosek_cli" ∨ s = "mosek_conif" then _ else _) = _
    rw [if_pos h]
  · show (if s = "cvxopt" ∨ s = "mosek_cli" ∨ s = "mosek_conif" then _ else _) = _
    rw [if_pos h]

example := C37_solver (O := Nat) (Val := Nat) (Out := Unit) (fun _ _ => ([], .ok ())) none "mosek_cli" (by simp)

/-- C37 fails for exceptions when `solve` is called with its default verbosity on a program that was not made from a model and is found infeasible
within a second: AttributeError. -/
theorem C37_debug_fails : ∃ c : Call Nat Nat Unit Unit, c.verbosity = 1 ∧ c.debug = none ∧
    (solve (fun _ _ => ([], .error .primal)) none ⟨[], .user 1, [], []⟩ c).result = .error .attribute :=
  ⟨⟨.named "cvxopt", 1, [], true, none, fun _ => .ok ()⟩, rfl, rfl, rfl⟩

/-- … and with a model that `debug` can relax, an infeasible program yields the solution of the relaxed one, and no exception. -/
theorem C37_relaxed_fails {r : R} : ∃ c : Call Nat Nat Unit R, c.verbosity = 1 ∧
    (solve (fun _ _ => ([], .error .primal)) none ⟨[], .user 1, [], []⟩ c).result = .ok r :=
  ⟨⟨.named "cvxopt", 1, [], true, some (fun w => (w, .ok r)), fun _ => .ok r⟩, rfl, rfl⟩

/-- C37 fails for a solver that raises `Infeasible` itself: UnboundLocalError. -/
theorem C37_infeasible_fails : ∃ c : Call Nat Nat Unit Unit, c.verbosity = 0 ∧
    (solve (fun _ _ => ([], .error .infeasible)) none ⟨[], .user 1, [], []⟩ c).result = .error .unbound :=
  ⟨C37_call [] (.named "cvxopt"), rfl, rfl⟩

/-- C37 for the solver's output: below verbosity 3 none of it reaches the user's stream, and all of it but newlines is in `solve_log`. -/
theorem C37_log {impl : String → Solver O Val Out} {setting : Option String} {w : World O Val} {c : Call O Val Out R}
    {name : String} {f : Solver O Val Out} (hs : getSolver impl setting c.solver = .ok (name, f)) (hq : Quiet c) :
    (c.verbosity ≤ 2 → (solve impl setting w c).world.echoed = w.echoed) ∧
    ∃ l, (solve impl setting w c).log = some l ∧
      l.filter (· != '\n') = (f (mkArgs w.defaults name c.kwargs).1).1.flatten.filter (· != '\n') := by
  constructor
  · intro h
    rw [quiet_world hs hq]
    dsimp only
    unfold echo
    rw [if_neg (by omega), List.append_nil]
  · refine ⟨_, ?_, joinLines_logged _⟩
    unfold solve
    rw [hs]
    dsimp only
    split
    · rfl
    · split_ifs <;> rfl

/-- A solver that writes two lines and a newline. -/
example : (solve (R := Unit) (fun _ _ => (["a\n".toList, "\n".toList, "b".toList], .ok ())) none ⟨[], .user 1, [], []⟩ (C37_call [] (.named "cvxopt"))).log =
    some "a\nb".toList := by decide +kernel

end
end Verif
