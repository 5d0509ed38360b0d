import Verif.Spec.Guess
import Verif.Props.Inequality

/-!
# C54: the starting point of `localsolve`
-/

set_option linter.unusedSectionVars false

namespace Verif
open PyDict Guess

section
variable {V N K : Type} [DecidableEq V] [DecidableEq N]

theorem move_fold (a : Arg V N K) (v : V) : ∀ (l : List V) (d : PyDict V K),
    (l.foldl (fun d v => match a.look v with | some c => d.set v c | none => d) d).get? v =
      if v ∈ l then (a.look v).or (d.get? v) else d.get? v := by
  intro l
  induction l with
  | nil => simp
  | cons u l ih =>
    intro d
    simp only [List.foldl_cons]
    rw [ih]
    cases hu : a.look u with
    | none =>
      by_cases huv : v = u
      · subst huv
        simp [hu]
      · simp [huv]
    | some c =>
      by_cases huv : v = u
      · subst huv
        simp [hu, get?_set]
      · have : (u == v) = false := by simpa using Ne.symm huv
        simp [huv, get?_set, this]

theorem move_get? (s : Sgp V K) (a : Arg V N K) (v : V) :
    (s.move a).x0.get? v = if v ∈ s.sgpvks then (a.look v).or (s.x0.get? v) else s.x0.get? v := move_fold a v _ _

theorem look_ofSolve (sol : PyDict V K) (v : V) : (ofSolve (N := N) sol).look v = sol.get? v := by
  simp only [ofSolve, Arg.look]
  induction sol with
  | nil => rfl
  | cons p l ih =>
    obtain ⟨u, c⟩ := p
    rw [List.map_cons, get?_cons, get?_cons, ih]
    by_cases h : u = v
    · simp [h]
    · have h1 : (Key.varkey (N := N) u == Key.varkey v) = false := by simpa using h
      have h2 : (u == v) = false := by simpa using h
      simp [h1, h2]

/-- Only `VarKey`s are used as keys, or a `KeyDict` is given. -/
def ByKey : Arg V N K → Prop
  | .plain d => ∀ kc ∈ d, ∃ v, kc.1 = Key.varkey v
  | .keydict _ => True

theorem look_eq_says (res : N → Option V) : ∀ {a : Arg V N K}, ByKey a → ∀ v, a.look v = a.says res v
  | .keydict _, _, _ => rfl
  | .plain d, h, v => by
    simp only [Arg.look, Arg.says]
    induction d with
    | nil => rfl
    | cons p l ih =>
      obtain ⟨k, c⟩ := p
      obtain ⟨u, hu⟩ := h (k, c) (by simp)
      simp only at hu
      subst hu
      rw [get?_cons, List.find?_cons, ih (fun kc hkc => h kc (List.mem_cons_of_mem _ hkc))]
      by_cases huv : u = v
      · simp [huv, Key.means]
      · have h1 : (Key.varkey (N := N) u == Key.varkey v) = false := by simpa using huv
        simp [h1, huv, Key.means]

theorem scanl_cons {α β : Type} (f : β → α → β) (b : β) (l : List α) : ∃ r, l.scanl f b = b :: r := by
  cases l with
  | nil => exact ⟨[], rfl⟩
  | cons a l => exact ⟨_, List.scanl_cons⟩

theorem moves_get (sols : List (PyDict V K)) : ∀ (s t : Sgp V K) (n : Nat),
    (sols.scanl (fun s sol => s.move (ofSolve (N := N) sol)) s)[n]? = some t → ∀ v,
    t.x0.get? v = if v ∈ s.sgpvks then ((sols.take n).reverse.findSome? (fun sol => sol.get? v)).or (s.x0.get? v) else s.x0.get? v := by
  induction sols with
  | nil =>
    intro s t n ht v
    cases n with
    | zero => simp only [List.scanl_nil, List.getElem?_cons_zero, Option.some.injEq] at ht; subst ht; simp
    | succ n => simp at ht
  | cons sol sols ih =>
    intro s t n ht v
    rw [List.scanl_cons] at ht
    cases n with
    | zero => simp only [List.getElem?_cons_zero, Option.some.injEq] at ht; subst ht; simp
    | succ n =>
      simp only [List.getElem?_cons_succ] at ht
      rw [ih _ _ _ ht v, move_get?, look_ofSolve]
      have : (s.move (ofSolve (N := N) sol)).sgpvks = s.sgpvks := rfl
      rw [this]
      by_cases hv : v ∈ s.sgpvks
      · simp only [hv, if_true, List.take_succ_cons, List.reverse_cons, List.findSome?_append, Option.or_assoc]
        simp
      · simp [hv]

end

section
variable {V N K D : Type} [DecidableEq V] [DecidableEq N] [Field K] [LinearOrder K] [HasPow K] [AddCommGroup D] [DecidableEq D]

theorem init_x0 {feastol : K} {vunits : V → Option (UnitQ D K)} {ord : Orders V K} {setord : List V → List V} {slack : Option V}
    {subs : PyDict V K} {sigs : List (Nomial V K D)} {s : Sgp V K} (h : Sgp.init feastol vunits ord setord slack subs sigs = .ok s) :
    s.x0 = subs := by
  unfold Sgp.init at h
  obtain ⟨hm, _, h1⟩ := except_bind_ok h
  cases h1
  rfl

/-- C54 for an `x0` written with `VarKey`s or given as a `KeyDict`: a new program first approximates its constraints at the given values,
then the values of constants, then 1; but only for the variables in `sgpvks`. -/
theorem C54_start_partial {feastol : K} {vunits : V → Option (UnitQ D K)} {ord : Orders V K} {setord : List V → List V} {slack : Option V}
    {subs : PyDict V K} {sigs : List (Nomial V K D)} {s : Sgp V K} (h : Sgp.init feastol vunits ord setord slack subs sigs = .ok s)
    (res : N → Option V) (a : Arg V N K) (ha : ByKey a) (sols : List (PyDict V K)) :
    ∃ s1 rest, s.localsolve (some a) sols = .ok (s1 :: rest) ∧
      (∀ v ∈ s.sgpvks, s1.point v = wanted (a.says res) subs.get? v) ∧
      ∀ v, v ∉ s.sgpvks → s1.point v = wanted (fun _ => none) subs.get? v := by
  have hx := init_x0 h
  obtain ⟨r, hr⟩ := scanl_cons (fun (s : Sgp V K) sol => s.move (ofSolve (N := N) sol)) (s.move a) sols
  refine ⟨s.move a, r, ?_, ?_, ?_⟩
  · simp [Sgp.localsolve, Sgp.gp, Except.map, hr]
  · intro v hv
    simp only [Sgp.point, move_get?, hv, if_true, wanted, ← look_eq_says res ha, hx]
    cases a.look v <;> rfl
  · intro v hv
    simp only [Sgp.point, move_get?, hv, if_false, wanted, hx]
    rfl

/-- C54 without an `x0`: a new program starts from constants and 1. -/
theorem C54_default {feastol : K} {vunits : V → Option (UnitQ D K)} {ord : Orders V K} {setord : List V → List V} {slack : Option V}
    {subs : PyDict V K} {sigs : List (Nomial V K D)} {s : Sgp V K} (h : Sgp.init feastol vunits ord setord slack subs sigs = .ok s)
    (sols : List (PyDict V K)) :
    ∃ s1 rest, s.localsolve (none : Option (Arg V N K)) sols = .ok (s1 :: rest) ∧
      ∀ v, s1.point v = wanted (fun _ => none) subs.get? v := by
  have hx := init_x0 h
  obtain ⟨r, hr⟩ := scanl_cons (fun (s : Sgp V K) sol => s.move (ofSolve (N := N) sol)) s sols
  refine ⟨s, r, ?_, ?_⟩
  · simp [Sgp.localsolve, Sgp.gp, Except.map, hr]
  · intro v
    simp only [Sgp.point, wanted, hx]
    rfl

/-- C54, later passes: the constraints are approximated at the last value found for each variable of `sgpvks`. -/
theorem C54_later_partial (s : Sgp V K) (a : Option (Arg V N K)) (sols : List (PyDict V K)) (ss : List (Sgp V K))
    (h : s.localsolve a sols = .ok ss) (n : Nat) (sol : PyDict V K) (hsol : sols[n]? = some sol) :
    ∃ t, ss[n + 1]? = some t ∧ ∀ v ∈ s.sgpvks, ∀ c, sol.get? v = some c → t.point v = c := by
  unfold Sgp.localsolve at h
  have : ∃ s1, s.gp a true = .ok s1 ∧ s1.sgpvks = s.sgpvks := by
    cases a with
    | none => exact ⟨s, rfl, rfl⟩
    | some a => exact ⟨s.move a, rfl, rfl⟩
  obtain ⟨s1, hs1, hv1⟩ := this
  rw [hs1] at h
  simp only [Except.map, Except.ok.injEq] at h
  subst h
  have hn : n < sols.length := (List.getElem?_eq_some_iff.1 hsol).1
  obtain ⟨t, ht⟩ : ∃ t, (sols.scanl (fun s sol => s.move (ofSolve (N := N) sol)) s1)[n + 1]? = some t := by
    have : n + 1 < (sols.scanl (fun (s : Sgp V K) sol => s.move (ofSolve (N := N) sol)) s1).length := by
      rw [List.length_scanl]; omega
    exact ⟨_, List.getElem?_eq_getElem this⟩
  refine ⟨t, ht, ?_⟩
  intro v hv c hc
  simp only [Sgp.point, moves_get sols s1 t (n + 1) ht v, hv1, hv, if_true]
  rw [List.take_add_one, hsol]
  simp [hc]

/-- C54 does not hold for an `x0` written with variables or names, the way substitutions are written: it changes nothing. -/
theorem C54_written_fails (s : Sgp V K) (d : PyDict (Key V N) K) (hd : ∀ kc ∈ d, ∀ v, kc.1 ≠ Key.varkey v) (sols : List (PyDict V K)) :
    ∃ ss, s.localsolve (some (.plain d)) sols = .ok ss ∧
      ∃ ss', s.localsolve (none : Option (Arg V N K)) sols = .ok ss' ∧
        ∀ (n : Nat) (t t' : Sgp V K), ss[n]? = some t → ss'[n]? = some t' → ∀ v, t.point v = t'.point v := by
  refine ⟨_, rfl, _, rfl, ?_⟩
  intro n t t' ht ht' v
  have hl : ∀ v, (Arg.plain d).look v = none := by
    intro v
    simp only [Arg.look]
    rw [get?_eq_none_iff]
    intro p hp
    have := hd p hp v
    simpa using this
  simp only [Sgp.point, moves_get sols _ t n ht v, moves_get sols _ t' n ht' v, move_get?, hl]
  have : (s.move (Arg.plain d)).sgpvks = s.sgpvks := rfl
  rw [this]
  by_cases hv : v ∈ s.sgpvks <;> simp [hv]

end

section
variable {V N D : Type} [DecidableEq V] [DecidableEq N] [AddCommGroup D] [Module ℝ D] [DecidableEq D]

/-- C54, what the starting point is good for: if the values given satisfy a signomial constraint, they satisfy its first approximation.
The assumptions on the constraint are those of `C17_inner_approximation_partial`. -/
theorem C54_feasible_partial {tol : ℝ} (htol : 0 ≤ tol) {vunits : V → Option (UnitQ D ℝ)} {ord : Orders V ℝ} {setord : List V → List V}
    {slack : Option V} {subs : PyDict V ℝ} {sigs : List (Nomial V ℝ D)} {s : Sgp V ℝ}
    (h : Sgp.init tol vunits ord setord slack subs sigs = .ok s) (res : N → Option V) (a : Arg V N ℝ) (ha : ByKey a)
    (hin : ∀ v, v ∉ s.sgpvks → a.says res v = none) (hpos : ∀ v c, a.says res v = some c → 0 < c) (hsubs : ∀ v c, subs.get? v = some c → 0 < c)
    (sols : List (PyDict V ℝ)) (ho : ord.Valid) (hset : ∀ l, (setord l).Perm l) {sig : Nomial V ℝ D} (hc : TermsTidy sig.hmap.terms)
    (hu : UnitOK sig.hmap.units) :
    ∃ s1 rest, s.localsolve (some a) sols = .ok (s1 :: rest) ∧
      ∀ f, asGpconstr false tol sig vunits s1.x0 ord setord = .ok [f] →
        (∀ posy negy m e c, sig.posyNegy false = .ok (some posy, some negy) →
          negy.monoLowerBound vunits (fillX0 negy.hmap.vks s1.x0) ord (setord negy.hmap.vks) = .ok m →
          m.hmap.terms = [(e, c)] → NoClash e posy.hmap.terms) →
        termsVal (wanted (a.says res) subs.get?) sig.hmap.terms ≤ 0 → termsVal (wanted (a.says res) subs.get?) f.hmap.terms ≤ 1 := by
  have hx := init_x0 h
  obtain ⟨r, hr⟩ := scanl_cons (fun (s : Sgp V ℝ) sol => s.move (ofSolve (N := N) sol)) (s.move a) sols
  have hget : ∀ v, (s.move a).x0.get? v = (a.says res v).or (subs.get? v) := by
    intro v
    rw [move_get?, hx, look_eq_says res ha]
    by_cases hv : v ∈ s.sgpvks
    · simp [hv]
    · simp [hv, hin v hv]
  refine ⟨s.move a, r, ?_, ?_⟩
  · simp [Sgp.localsolve, Sgp.gp, Except.map, hr]
  · intro f hf hclash hle
    have := C17_inner_approximation_partial htol hc hu ho hset (x0 := (s.move a).x0) ?_ hclash hf
    · rcases this with ⟨hnil, _⟩ | ⟨g, hg, _, _, h2⟩
      · cases hnil
      · cases hg
        refine h2 _ ?_ hle
        intro v
        rw [hget, wanted]
        cases a.says res v <;> rfl
    · intro v c hv
      rw [hget] at hv
      cases hsv : a.says res v with
      | none => rw [hsv] at hv; exact hsubs v c hv
      | some b =>
        rw [hsv] at hv
        simp only [Option.some_or, Option.some.injEq] at hv
        exact hv ▸ hpos v b hsv

end

/-! ### Witnesses -/

/-- `w*x**0.5 <= x + 1`, where `w` is `false` and `x` is `true`. -/
noncomputable def guessSig : Nomial Bool ℝ ℤ :=
  ⟨⟨[(⟨[(true, 1 / 2), (false, 1)]⟩, 1), (⟨[(true, 1)]⟩, -1), (HV.empty, -1)], none⟩, .signomial⟩

theorem guess_init : Sgp.init (1 / 1000) (fun _ => none) varlocs id none [] [guessSig] = .ok ⟨[], [false]⟩ := by
  norm_num [Sgp.init, Sgp.ofForms, approx, guessSig, asGpconstr, asHmapslt1, Nomial.posyNegy, Nomial.posyNegyStep, Nomial.posyOrZero, Nomial.monoLowerBound,
      monoApprox, monoApproxStep, fillX0, NMap.vks, NMap.diff, NMap.diffStep, NMap.unitsOfProduct, (by decide : Cls.posynomial ≠ Cls.monomial), List.mapM_cons,
      genUnsubbed, UnitCache.ratio, renameTerms, renameStep, List.foldlM, PyDict.get?, PyDict.set, PyDict.del,
      bind, pure, Except.bind, Except.pure, HV.beq_def, List.isPerm, HV.sub, HV.add, HV.scale, dictAdd, dictAddStep, dictScale, HV.empty,
      simplifyPosyIneq, wrapForm, mkSig, NMap.anyNonpositive, Except.map,
      formStep, noteConst, checkForm, mmap, mmapStep, pyIndex, NMap.sub, subState, subRound, subinplace, subInit, csUpdate, subAdd, varlocs, varlocKeys,
      PyDict.contains, PyDict.keys, HV.get?, HV.del, pwDom, pw_real, List.findIdx?_cons, List.modify_succ_cons]

/-- `y <= x + 1`, where `y` is `false` and `x` is `true`. -/
noncomputable def guessSig2 : Nomial Bool ℝ ℤ :=
  ⟨⟨[(⟨[(false, 1)]⟩, 1), (⟨[(true, 1)]⟩, -1), (HV.empty, -1)], none⟩, .signomial⟩

theorem guess_init2 (subs : PyDict Bool ℝ) (h : subs = [] ∨ subs = [(true, 1)]) :
    Sgp.init (1 / 1000) (fun _ => none) varlocs id none subs [guessSig2] = .ok ⟨subs, [false, true]⟩ := by
  rcases h with rfl | rfl <;>
  norm_num [Sgp.init, Sgp.ofForms, approx, guessSig2, asGpconstr, asHmapslt1, Nomial.posyNegy, Nomial.posyNegyStep, Nomial.posyOrZero, Nomial.monoLowerBound,
      monoApprox, monoApproxStep, fillX0, NMap.vks, NMap.diff, NMap.diffStep, NMap.unitsOfProduct, (by decide : Cls.posynomial ≠ Cls.monomial), List.mapM_cons,
      genUnsubbed, UnitCache.ratio, renameTerms, renameStep, List.foldlM, PyDict.get?, PyDict.set, PyDict.del,
      bind, pure, Except.bind, Except.pure, HV.beq_def, List.isPerm, HV.sub, HV.add, HV.scale, dictAdd, dictAddStep, dictScale, HV.empty,
      simplifyPosyIneq, wrapForm, mkSig, NMap.anyNonpositive, Except.map,
      formStep, noteConst, checkForm, mmap, mmapStep, pyIndex, NMap.sub, subState, subRound, subinplace, subInit, csUpdate, subAdd, varlocs, varlocKeys,
      PyDict.contains, PyDict.keys, HV.get?, HV.del, pwDom, pw_real, List.findIdx?_cons, List.modify_succ_cons]

/-- The hypotheses of `C54_start_partial` and `C54_feasible_partial` hold for `y <= x + 1` from `x = 3`. -/
example : Sgp.init (1 / 1000) (fun _ => none) varlocs id none [] [guessSig2] = .ok ⟨[], [false, true]⟩ ∧
    ByKey (.plain [(.varkey true, 3)] : Arg Bool String ℝ) ∧
    wanted ((.plain [(.varkey true, 3)] : Arg Bool String ℝ).says (fun _ => none)) (fun _ => none) true = 3 ∧
    (∀ v, v ∉ [false, true] → (.plain [(.varkey true, 3)] : Arg Bool String ℝ).says (fun _ => none) v = none) ∧
    termsVal (wanted ((.plain [(.varkey true, 3)] : Arg Bool String ℝ).says (fun _ => none)) (fun _ => none)) guessSig2.hmap.terms ≤ 0 := by
  refine ⟨guess_init2 [] (Or.inl rfl), ?_, ?_, ?_, ?_⟩
  · intro kc hkc
    exact ⟨true, by rw [List.mem_singleton.1 hkc]⟩
  · simp [wanted, Arg.says, Key.means]
  · intro v hv
    cases v <;> simp at hv
  · norm_num [termsVal, monVal, guessSig2, HV.empty, wanted, Arg.says, Key.means]

/-- C54 does not hold: `localsolve(x0={x: 3})` and `localsolve(x0={"x": 3})` for `y <= x + 1` start at `x = 1`. -/
theorem C54_variable_fails (k : Key Bool String) (hk : k = .variable true ∨ k = .name "x") :
    ∃ s s1 : Sgp Bool ℝ, Sgp.init (1 / 1000) (fun _ => none) varlocs id none [] [guessSig2] = .ok s ∧
      s.localsolve (some (.plain [(k, 3)])) [] = .ok [s1] ∧ s1.point true = 1 ∧
      wanted ((.plain [(k, 3)] : Arg Bool String ℝ).says (fun n => if n = "x" then some true else none)) (fun _ => none) true = 3 := by
  refine ⟨_, _, guess_init2 [] (Or.inl rfl), rfl, ?_, ?_⟩
  · rcases hk with rfl | rfl <;> simp [Sgp.point, Sgp.move, Arg.look, PyDict.get?]
  · rcases hk with rfl | rfl <;> simp [wanted, Arg.says, Key.means]

/-- C54 does not hold: `gp(x0={"x": 3})` raises. -/
theorem C54_name_fails (s : Sgp Bool ℝ) : s.gp (some (.plain [(.name "x", 3)] : Arg Bool String ℝ)) false = .error .attributeError := rfl

/-- C54 does not hold: at 1, `x` cancels out of the approximation of `w*x**0.5 <= x + 1`, so `x` is taken to be 1 ever after,
whatever is given and whatever is found. -/
theorem C54_cancelled_fails (a : Option (Arg Bool String ℝ)) (sols : List (PyDict Bool ℝ)) :
    ∃ s ss, Sgp.init (1 / 1000) (fun _ => none) varlocs id none [] [guessSig] = .ok s ∧ true ∈ guessSig.hmap.vks ∧
      s.localsolve a sols = .ok ss ∧ ∀ t ∈ ss, t.point true = 1 := by
  have h1 : ∃ s1, (⟨[], [false]⟩ : Sgp Bool ℝ).gp a true = .ok s1 ∧ s1.sgpvks = [false] ∧ s1.x0.get? true = none := by
    cases a with
    | none => exact ⟨_, rfl, rfl, rfl⟩
    | some a => exact ⟨_, rfl, rfl, by rw [move_get?]; simp [PyDict.get?]⟩
  obtain ⟨s1, hs1, hv, hx⟩ := h1
  refine ⟨_, _, guess_init, by simp [guessSig, NMap.vks], by simp only [Sgp.localsolve, hs1]; rfl, ?_⟩
  intro t ht
  obtain ⟨n, hn⟩ := List.mem_iff_getElem?.1 ht
  simp [Sgp.point, moves_get sols s1 t n hn, hv, hx]

/-- C54 does not hold for constants: a value given for a constant (for example by an earlier solution) is used in every approximation, in place
of the constant's value. -/
theorem C54_constant_fails (sols : List (PyDict Bool ℝ)) (hfree : ∀ sol ∈ sols, sol.get? true = none) :
    ∃ s ss, Sgp.init (1 / 1000) (fun _ => none) varlocs id none [(true, 1)] [guessSig2] = .ok s ∧
      s.localsolve (some (.keydict [(true, 3)] : Arg Bool String ℝ)) sols = .ok ss ∧ ∀ t ∈ ss, t.point true = 3 := by
  refine ⟨_, _, guess_init2 _ (Or.inr rfl), rfl, ?_⟩
  intro t ht
  obtain ⟨n, hn⟩ := List.mem_iff_getElem?.1 ht
  have : (sols.take n).reverse.findSome? (fun sol => sol.get? true) = none := by
    rw [List.findSome?_eq_none_iff]
    intro sol hsol
    exact hfree sol (List.mem_of_mem_take (List.mem_reverse.1 hsol))
  simp only [Sgp.point, moves_get sols _ t n hn, this, move_get?]
  simp [Sgp.move, Arg.look, PyDict.get?]

/-- C54 does not hold when a program is solved again: without an `x0` it starts from the last point of the solve before. -/
theorem C54_again_fails : ∃ s s1 s2 : Sgp Bool ℝ, Sgp.init (1 / 1000) (fun _ => none) varlocs id none [] [guessSig2] = .ok s ∧
    s.localsolve (none : Option (Arg Bool String ℝ)) [[(true, 5), (false, 6)]] = .ok [s1, s2] ∧
    s2.localsolve (none : Option (Arg Bool String ℝ)) [] = .ok [s2] ∧ s2.point true = 5 := by
  refine ⟨_, _, _, guess_init2 [] (Or.inl rfl), rfl, rfl, ?_⟩
  norm_num [Sgp.point, Sgp.move, Arg.look, ofSolve, PyDict.get?, PyDict.set, pure]

end Verif
