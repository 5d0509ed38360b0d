import Verif.Model.AutoArray
import Verif.Props.Autosweep
import Verif.Props.DictOfLists

/-! C95: the solution array of an autosweep. -/

set_option linter.unusedSectionVars false

namespace Verif
open PyDict
namespace Auto
open DoL

section
variable {S K : Type} [DecidableEq S]

theorem Tree.sollist_two {Sol : Type} [LinearOrder K] (t : Tree K Sol) : ∃ a b l, t.sollist = a :: b :: l := by
  cases t with
  | fresh lo hi s0 s1 => exact ⟨s0, s1, [], rfl⟩
  | costed lo hi s0 s1 x lb ub => exact ⟨s0, s1, [], rfl⟩
  | split lo hi s0 s1 x l r =>
    unfold Tree.sollist
    cases h : l.sollist.tail ++ r.sollist.tail.dropLast ++ [s1] with
    | nil => simp at h
    | cons b l => exact ⟨_, b, l, rfl⟩

theorem dict_of_leafAt {α : Type} {n : Nest S α} {k : S} {a : α} (h : n.leafAt [k] = some a) : ∃ d, n = .dict d ∧ PyDict.get? d k = some (.leaf a) := by
  cases n with
  | leaf x => simp [Nest.leafAt, Nest.at] at h
  | dict d =>
    refine ⟨d, rfl, ?_⟩
    unfold Nest.leafAt Nest.at at h
    dsimp only at h
    cases hg : PyDict.get? d k with
    | none => rw [hg] at h; simp at h
    | some v =>
      rw [hg] at h
      cases v with
      | leaf b => simpa [Nest.at] using h
      | dict e => simp [Nest.at] at h

end
end Auto

section
open Auto DoL
variable {S T K F : Type} [DecidableEq S] [DecidableEq T] [Field K] [LinearOrder K]

/-- C95: if all solutions of a model have the same keys, the solution array of a finished autosweep has as many solutions as there were solves. They are those
found for increasing values of the swept variable, from the lower to the upper bound: each array has one row for each of them, in this order, and `atindex(i)`
is the i-th. Partial: solutions with different keys are excluded (see the witness). -/
theorem C95_array_partial (solve : PyDict S (Val K F) → Except Err (Nest T (Leaf K))) (getTol : K → K → Nest T (Leaf K) → Nest T (Leaf K) → K × K × K)
    (depth : Nat) (logtol : K) (v : S) {lo hi : K} (h0 : 0 < lo) (subs : PyDict S (Val K F)) (cost : T)
    (hw : ∀ x r, solve (subs.set v (.num x)) = .ok r → r.WF ∧ ∃ c, r.leafAt [cost] = some c)
    (hs : ∀ x r x' r', solve (subs.set v (.num x)) = .ok r → solve (subs.set v (.num x')) = .ok r' → Same r r')
    {s' : AS S K F} {t : Tree K (Nest T (Leaf K))} {n : Nat} {tol : K}
    (h : autosweep solve getTol depth logtol v lo hi subs = (s', .ok (t, n, tol))) :
    ∃ (xs : List K) (rs : List (Nest T (Leaf K))) (o : Nest T (Arr K)),
      xs.Pairwise (· < ·) ∧ xs.head? = some lo ∧ xs.getLast? = some hi ∧ List.Forall₂ (fun x r => solve (subs.set v (.num x)) = .ok r) xs rs ∧
      t.sollist = rs ∧ t.solarray = .ok o ∧ solLen cost o = xs.length ∧ n = xs.length ∧
      (∀ p ls, rs.map (·.leafAt p) = ls.map some → o.leafAt p = some (.many ls)) ∧
      ∀ i r, rs[i]? = some r → Same r (atindex i o) ∧ ∀ p, (atindex i o).leafAt p = (r.leafAt p).map .val := by
  obtain ⟨pts, a1, a2, a3, ⟨a4, a5⟩, a6, _⟩ := C30_autosweep solve getTol depth logtol v h0 subs h
  obtain ⟨r0, r1, rs, hl⟩ := t.sollist_two
  have hsol : ∀ r ∈ r0 :: r1 :: rs, ∃ x, solve (subs.set v (.num x)) = .ok r := by
    intro r hr
    rw [← hl, a2] at hr
    obtain ⟨p, hp, rfl⟩ := List.mem_map.1 hr
    exact ⟨_, a6 p hp⟩
  obtain ⟨x0, hx0⟩ := hsol r0 (by simp)
  have hsame : ∀ r' ∈ r1 :: rs, Same r0 r' := by
    intro r' hr'
    obtain ⟨x, hx⟩ := hsol r' (List.mem_cons_of_mem _ hr')
    exact hs _ _ _ _ hx0 hx
  have hwf : ∀ r' ∈ r0 :: r1 :: rs, r'.WF := fun r' hr' => (hw _ _ (hsol r' hr').choose_spec).1
  obtain ⟨o, e1, e2⟩ := C29_read_partial r0 (r1 :: rs) hwf hsame (Or.inl (by simp))
  obtain ⟨o', f1, f2, f3⟩ := appendAll_ok (r := r0) (r1 :: rs) (fun r' hr' => hwf r' (by simp [hr'])) hsame
  rw [e1] at f1
  cases f1
  have hrows : ∀ p ls, (r0 :: r1 :: rs).map (·.leafAt p) = ls.map some → (toArrays o).leafAt p = some (.many ls) := by
    intro p ls hls
    have := f3 p ls hls
    unfold toArrays
    rw [leafAt_mapLeaves, this]
    have hlen := congrArg List.length hls
    simp only [List.map_cons, List.length_cons, List.length_map] at hlen
    match ls, hlen with
    | a :: b :: l, _ => rfl
  have hlen : (r0 :: r1 :: rs).length = pts.length := by rw [← hl, a2, List.length_map]
  refine ⟨pts.map (·.1), r0 :: r1 :: rs, toArrays o, ?_, ?_, ?_, ?_, hl, ?_, ?_, ?_, hrows, e2⟩
  · exact List.pairwise_map.2 a1
  · rw [List.head?_map]; exact a4
  · rw [List.getLast?_map]; exact a5
  · rw [← hl, a2, List.forall₂_map_left_iff, List.forall₂_map_right_iff, List.forall₂_same]
    exact a6
  · unfold Tree.solarray
    rw [hl, e1]
    rfl
  · have hcs : ∃ ls : List (Leaf K), (r0 :: r1 :: rs).map (·.leafAt [cost]) = ls.map some := by
      generalize r0 :: r1 :: rs = l at hsol
      induction l with
      | nil => exact ⟨[], rfl⟩
      | cons q l ih =>
        obtain ⟨x, hx⟩ := hsol q (by simp)
        obtain ⟨c, hc⟩ := (hw _ _ hx).2
        obtain ⟨ls, hls⟩ := ih (fun q hq => hsol q (by simp [hq]))
        exact ⟨c :: ls, by rw [List.map_cons, hc, hls]; rfl⟩
    obtain ⟨ls, hls⟩ := hcs
    obtain ⟨d, hd, hg⟩ := dict_of_leafAt (hrows _ _ hls)
    rw [hd]
    unfold solLen
    dsimp only
    rw [hg]
    dsimp only
    have := congrArg List.length hls
    rw [List.length_map, List.length_map] at this
    rw [List.length_map, ← hlen]
    exact this.symm
  · rw [List.length_map]; exact a3

/-- C95 is violated if only some solutions have warnings, which are entered under `"warnings"` (gpkit/small_scripts.py 6-12): with a warning for the upper bound
only there is no array, and with one for the lower bound only every solution of the array shows it. -/
theorem C95_warnings_fails :
    ((Tree.fresh 1 2 (.dict [("cost", .leaf (.num 3))]) (.dict [("cost", .leaf (.num 4)), ("warnings", .dict [("loose", .leaf (.num 9))])]) :
      Tree ℚ (Nest String (Leaf ℚ))).solarray.toOption.isNone) = true ∧
    ((Tree.fresh 1 2 (.dict [("cost", .leaf (.num 3)), ("warnings", .dict [("loose", .leaf (.num 9))])]) (.dict [("cost", .leaf (.num 4))]) :
      Tree ℚ (Nest String (Leaf ℚ))).solarray.toOption.map (fun o =>
        ((atindex 0 o).leafAt ["warnings", "loose"], (atindex 1 o).leafAt ["warnings", "loose"]))) =
      some (some (.val (.num 9)), some (.val (.num 9))) := by
  decide +kernel

/-- The solution array of an autosweep with three solves. -/
example : ∃ (xs : List ℚ) (o : Nest String (Arr ℚ)) (t : Tree ℚ (Nest String (Leaf ℚ))), xs.head? = some 1 ∧ t.solarray = .ok o ∧
    solLen "cost" o = 3 ∧ o.leafAt ["cost"] = some (.many [.num 1, .num (9 / 4), .num (7 / 2)]) := by
  let solve : PyDict String (Val ℚ Unit) → Except Err (Nest String (Leaf ℚ)) := fun s =>
    match s.get? "x" with
    | some (.num x) => .ok (.dict [("cost", .leaf (.num x))])
    | _ => .error .typeError
  have hsolve : ∀ s r, solve s = .ok r → ∃ x, r = .dict [("cost", .leaf (.num x))] := by
    intro s r h
    dsimp only [solve] at h
    split at h
    · cases h; exact ⟨_, rfl⟩
    · cases h
  generalize hq : autosweep solve (fun lo hi _ _ => ((lo + hi) / 2, 0, hi - lo)) 5 1 "x" 1 (7 / 2) [("x", .num 9)] = q
  have hq' : (match q.2 with
    | .ok (t, n, _) => some ((t.sollist.map (·.leafAt ["cost"])), n)
    | .error _ => none) = some ([some (.num 1), some (.num (9 / 4)), some (.num (7 / 2))], 3) := by
    rw [← hq]
    decide +kernel
  obtain ⟨s', r⟩ := q
  cases r with
  | error e => cases hq'
  | ok r =>
    obtain ⟨t, n, tol⟩ := r
    simp only [Option.some.injEq, Prod.mk.injEq] at hq'
    obtain ⟨xs, rs, o, b1, b2, b3, b4, b9, b5, b6, b7, b8, _⟩ := C95_array_partial solve (fun lo hi _ _ => ((lo + hi) / 2, 0, hi - lo)) 5 1 "x"
      (by norm_num) [("x", .num 9)] "cost" (by
      intro y r h
      obtain ⟨x, rfl⟩ := hsolve (PyDict.set [("x", .num 9)] "x" (.num y)) r h
      refine ⟨.dict (by simp) ?_, .num x, rfl⟩
      intro kv h
      simp only [List.mem_cons, List.not_mem_nil, or_false] at h
      subst h
      exact .leaf _) (by
      intro y r y' r' h h'
      obtain ⟨x, rfl⟩ := hsolve (PyDict.set [("x", .num 9)] "x" (.num y)) r h
      obtain ⟨x', rfl⟩ := hsolve (PyDict.set [("x", .num 9)] "x" (.num y')) r' h'
      rw [same_dict]
      intro k
      by_cases hk : k = "cost"
      · subst hk; exact Or.inr ⟨_, _, rfl, rfl, fun p => by cases p <;> rfl⟩
      · left; simp [PyDict.get?, Ne.symm hk]) hq
    refine ⟨xs, o, t, b2, b5, by rw [b6, ← b7]; exact hq'.2, b8 ["cost"] _ ?_⟩
    rw [← b9]
    exact hq'.1

end
end Verif
