import Verif.Lemmas.Sequential

/-! Solutions of signomial models: C62. -/

set_option linter.unusedSectionVars false

namespace Verif
open PyDict GP Pipeline SeqGP
variable {V N D : Type} [DecidableEq V] [DecidableEq N] [AddCommGroup D] [DecidableEq D] [Module ℝ D]

theorem seq_get?_del {d : PyDict V ℝ} {v u : V} (h : u ≠ v) : (d.del v).get? u = d.get? u := by
  induction d with
  | nil => rfl
  | cons p d ih =>
    rw [PyDict.del]
    split
    · rename_i hp
      rw [get?_cons, if_neg]
      rw [eq_of_beq hp]
      simpa using h.symm
    · rw [get?_cons, get?_cons, ih]

/-- C62: if `localsolve` returns and the check of the solution passes, then constants have their values in the result, all values are positive, and
there is a slack `σ`, which is one without `use_pccp`, at most `1 + eps` if the solution does not warn of slack, and otherwise in the result, such that at
every point with the values of the result every constraint of the model holds up to tolerances, signomial constraints hold with a factor `σ` to spare, and
the reported cost is the cost times `σ` to the power of the penalty. For signomial equalities there is a further factor, that by which terms of one side
have moved apart since the point at which the last pass approximated them (see `C87_pass_fails`). Missing: constraints with the defect of `C12_form_fails`, and
the same in approximations; models in which the number of terms of an approximation changes from pass to pass (see `C19_fewer_terms_fails` and
`C19_more_terms_fails`), or in which an approximation is constant without slack; and constants that are zero or negative. -/
theorem C62_feasible_partial {S : Setup V D} (hS : OK S) (hsig : ∀ sig ∈ S.sigs, SigOK S.vunits S.ord S.setord S.fixed sig) (hone : OneForm S)
    {s : Sp V} (hinit : S.init = .ok s) {optimize : Data V ℝ → Coot ℝ → Except Err SolverOut} {eps reltol tol abstol : ℝ} (heps : 0 ≤ eps) {lim : Nat}
    {warns : Bool} {x0 : Option (Guess.Arg V N ℝ)} (hx0 : ∀ a, x0 = some a → ∀ v c, a.look v = some c → 0 < c)
    (hsigs : ∀ n s' out, n ≤ lim → S.passes optimize s x0 n = .ok (s', out) → ∀ sig ∈ S.sigs, SigOK S.vunits S.ord S.setord s'.guess.x0 sig)
    (hlen : ∀ n s' out, n ≤ lim → S.passes optimize s x0 n = .ok (s', out) →
      s'.prog.hmaps.map (fun f => f.terms.length) = s.prog.hmaps.map (fun f => f.terms.length)) {r : Result V} {w : Bool}
    (h : S.localsolve optimize eps reltol tol abstol lim warns s x0 = .ok (r, true, w)) :
    (∀ v c, S.fixed.get? v = some c → r.vars.get? v = some c) ∧ (∀ v c, r.vars.get? v = some c → 0 < c) ∧
    ∃ σ n s' out, n ≤ lim ∧ S.passes optimize s x0 n = .ok (s', out) ∧ 0 < σ ∧ 1 ≤ (1 + max S.feastol tol) * σ ∧ (S.slack = none → σ = 1) ∧ (w = false → σ ≤ 1 + eps) ∧
      (w = true → ∃ v, S.slack = some v ∧ r.vars.get? v = some σ) ∧
      ∀ pt : V → ℝ, (∀ v, 0 < pt v) → Agrees pt r.vars →
        (∀ c ∈ S.cons, c.Holds (1 + max S.feastol tol) pt) ∧
        (∀ sig ∈ S.sigs, sig.Holds (fun v => (s'.guess.x0.get? v).getD 1) ((1 + max S.feastol tol) * max 1 σ) pt) ∧
        Close tol abstol (termsVal pt S.cost.terms * σ ^ S.penalty) r.cost := by
  have hT := le_max_left S.feastol tol
  set T := max S.feastol tol with hTdef
  obtain ⟨h0, G, hrun, hok, hspec⟩ := init_spec hS hT hsig hone hinit
  have hw0 : ∀ h ∈ s.prog.hmaps, ∀ t ∈ h.terms, (t.1.items.map (·.1)).Nodup := by
    intro f hf t ht
    exact GP.wf_nodup.1 (hrun.inv.nod t (List.mem_flatMap.2 ⟨f, hf, ht⟩))
  unfold Setup.localsolve at h
  split at h
  · rename_i st hst
    obtain ⟨⟨s', out⟩, hp, h1⟩ := except_bind_ok h
    obtain ⟨⟨r0, b⟩, hg, h2⟩ := except_bind_ok h1
    obtain ⟨⟨r', w'⟩, hd, h3⟩ := except_bind_ok h2
    cases h3
    have hle : st.gps - 1 ≤ lim := by
      obtain ⟨o, ho, hgo, -⟩ := C18_ends_partial eps reltol lim warns (fun n => (S.passes optimize s x0 n).toOption.map (fun so => so.2.objective))
      rw [hst] at ho
      cases ho
      have hgo' : st.gps ≤ lim + 1 := hgo
      omega
    have hrun' := passes_run hS hT hrun hx0 hsigs hlen _ s' out hle hp
    obtain ⟨e0, e1, e2, e3⟩ := result_spec hS hw0 hrun' hok (le_max_right S.feastol tol) hg
    -- the point with the slack put back
    have hmain : ∀ σ : ℝ, ∀ pt : V → ℝ, (∀ v, 0 < pt v) → Agrees pt r0.vars → slackVal S.slack pt = σ →
        1 ≤ (1 + T) * σ ∧ (∀ c ∈ S.cons, c.Holds (1 + T) pt) ∧ (∀ sig ∈ S.sigs, sig.Holds (fun v => (s'.guess.x0.get? v).getD 1) ((1 + T) * max 1 σ) pt) ∧
        Close tol abstol (termsVal pt S.cost.terms * σ ^ S.penalty) r0.cost := by
      intro σ pt hpt hag hσ
      obtain ⟨q, q1, q2, q3, q4, q5⟩ := e3 pt hpt hag
      obtain ⟨p1, p2⟩ := hspec q q1
      obtain ⟨p3, p4⟩ := p2 q4
      rw [q2, hσ] at p1 p3
      rw [q2] at p4
      rw [hσ] at q5
      rw [p1] at q3
      exact ⟨p3, p4, q5, q3⟩
    unfold dropSlack at hd
    split at hd
    · rename_i hn
      cases hd
      refine ⟨e1, e2, 1, _, s', out, hle, hp, one_pos, ?_, fun _ => rfl, fun _ => by linarith, by simp, ?_⟩
      · have : 0 ≤ T := hS.feastol.trans hT
        linarith
      · intro pt hpt hag
        exact (hmain 1 pt hpt hag (by rw [hn]; rfl)).2
    · rename_i v hv
      split at hd
      · cases hd
      rename_i c hc
      obtain ⟨v1, v2, v3, v4⟩ := hS.slack v hv
      have hcpos := e2 v c hc
      -- any point with the values, and the slack put back
      have hback : ∀ pt : V → ℝ, (∀ u, 0 < pt u) → (∀ u x, u ≠ v → r0.vars.get? u = some x → pt u = x) →
          1 ≤ (1 + T) * c ∧ (∀ k ∈ S.cons, k.Holds (1 + T) pt) ∧ (∀ sig ∈ S.sigs, sig.Holds (fun v => (s'.guess.x0.get? v).getD 1) ((1 + T) * max 1 c) pt) ∧
          Close tol abstol (termsVal pt S.cost.terms * c ^ S.penalty) r0.cost := by
        intro pt hpt hag
        have hne : ∀ u, u ≠ v → (fun u => if u = v then c else pt u) u = pt u := by intro u hu; simp [hu]
        obtain ⟨m1, m2, m3, m4⟩ := hmain c (fun u => if u = v then c else pt u)
          (by intro u; split <;> [exact hcpos; exact hpt u])
          (by
            intro u x hu
            simp only
            by_cases huv : u = v
            · subst huv
              rw [hc] at hu
              cases hu
              rw [if_pos rfl]
            · rw [if_neg huv]
              exact hag u x huv hu)
          (by rw [hv]; simp [slackVal])
        refine ⟨m1, fun k hk => conAbsent_holds (v3 k hk) hne (m2 k hk), fun sig hs => sigHolds_absent (v4 sig hs) hne (m3 sig hs), ?_⟩
        rwa [absent_val v2 hne] at m4
      -- a point with the values, for what does not depend on the point
      have hsome : 1 ≤ (1 + T) * c := by
        refine (hback (fun u => (r0.vars.get? u).getD 1) ?_ ?_).1
        · intro u
          cases hu : r0.vars.get? u with
          | none => simp
          | some x => simpa using e2 u x hu
        · intro u x _ hu
          simp only [hu, Option.getD_some]
      split at hd
      · rename_i hce
        cases hd
        refine ⟨?_, ?_, c, _, s', out, hle, hp, hcpos, hsome, by rw [hv]; simp, fun _ => by linarith, by simp, ?_⟩
        · intro u x hu
          simp only
          rw [seq_get?_del]
          · exact e1 u x hu
          · rintro rfl
            rw [v1] at hu
            cases hu
        · intro u x hu
          simp only at hu
          rw [get?_del e0] at hu
          split at hu
          · cases hu
          · exact e2 u x hu
        · intro pt hpt hag
          refine (hback pt hpt ?_).2
          intro u x huv hu
          refine hag u x ?_
          simp only
          rw [seq_get?_del huv]
          exact hu
      · rename_i hce
        cases hd
        refine ⟨e1, e2, c, _, s', out, hle, hp, hcpos, hsome, by rw [hv]; simp, by simp, fun _ => ⟨v, hv, hc⟩, ?_⟩
        intro pt hpt hag
        exact (hback pt hpt (fun u x _ hu => hag u x hu)).2
  · cases h
  · obtain ⟨_, -, h1⟩ := except_bind_ok h
    cases h1
  · cases h

/-- `x + x**2 >= 2`, where `x` is 0. -/
noncomputable def seqSig : Nomial ℕ ℝ ℝ := ⟨⟨[(HV.empty, 2), (⟨[(0, 1)]⟩, -1), (⟨[(0, 2)]⟩, -1)], none⟩, .signomial⟩

/-- Minimizing `x` subject to `x + x**2 >= 2`, with slack 1. -/
noncomputable def seqSetup : Setup ℕ ℝ :=
  ⟨1 / 1000, fun _ => none, fun h f => varlocs h f, id, some 1, 200, [], ⟨[(⟨[(0, 1)]⟩, 1)], none⟩, [], [⟨seqSig, false⟩]⟩

theorem seq_approx (x0 : PyDict ℕ ℝ) (h : x0 = [] ∨ x0 = [(0, 1), (1, 1)]) :
    Guess.approx (1 / 1000) (fun _ => none) (fun h f => varlocs h f) id x0 seqSig = .ok [[(⟨[(0, -(3 / 2))]⟩, 1)]] := by
  rcases h with rfl | rfl <;>
  norm_num [Guess.approx, seqSig, asGpconstr, asHmapslt1, Nomial.posyNegy, Nomial.posyNegyStep, Nomial.posyOrZero, Nomial.monoLowerBound,
      monoApprox, monoApproxStep, fillX0, NMap.vks, NMap.diff, NMap.diffStep, NMap.unitsOfProduct, (by decide : Cls.posynomial ≠ Cls.monomial), List.mapM_cons,
      genUnsubbed, UnitCache.ratio, renameTerms, renameStep, List.foldlM, PyDict.get?, PyDict.set, PyDict.del,
      bind, pure, Except.bind, Except.pure, HV.beq_def, List.isPerm, HV.sub, HV.add, HV.scale, dictAdd, dictAddStep, dictScale, HV.empty,
      simplifyPosyIneq, wrapForm, mkSig, NMap.anyNonpositive, Except.map,
      formStep, noteConst, checkForm, mmap, mmapStep, pyIndex, NMap.sub, subState, subRound, subinplace, subInit, csUpdate, subAdd, varlocs, varlocKeys,
      PyDict.contains, PyDict.keys, HV.get?, HV.del, pwDom, pw_real, List.findIdx?_cons, List.modify_succ_cons]

theorem seq_approxOf (x0 : PyDict ℕ ℝ) (h : x0 = [] ∨ x0 = [(0, 1), (1, 1)]) :
    approxOf (1 / 1000) (fun _ => none) (fun h f => varlocs h f) id x0 ⟨seqSig, false⟩ = .ok [[(⟨[(0, -(3 / 2))]⟩, 1)]] := seq_approx x0 h

/-- what the solver gets -/
noncomputable def seqHmaps : List (Hmap ℕ ℝ) :=
  [⟨[(⟨[(0, 1), (1, 200)]⟩, 1)], false⟩, ⟨[(⟨[(0, -(3 / 2)), (1, -1)]⟩, 1)], false⟩, ⟨[(⟨[(1, -1)]⟩, 1)], false⟩]

theorem seq_init : seqSetup.init = .ok ⟨SGP.initProg 1 seqHmaps, ⟨[], [0, 1]⟩, 1⟩ := by
  have ha := seq_approxOf [] (Or.inl rfl)
  unfold Setup.init
  simp only [seqSetup, List.any_cons, List.any_nil, Guess.Sgp.ofForms, List.mapM_cons, List.mapM_nil, ha, bind, pure, Except.bind, Except.pure]
  norm_num [Setup.slackCost, slackPow, approxCon, slackCons, hmaps, Con.hmaps, Con.unsubbed, Con.isEq, seqHmaps, Nomial.mulTerms, Nomial.mulStep,
      asHmapslt1, List.mapM_cons,
      genUnsubbed, UnitCache.ratio, renameTerms, renameStep, List.foldlM, PyDict.get?, PyDict.set, PyDict.del,
      bind, pure, Except.bind, Except.pure, HV.beq_def, List.isPerm, HV.sub, HV.add, HV.scale, dictAdd, dictAddStep, dictScale, HV.empty,
      simplifyPosyIneq, wrapForm, mkSig, NMap.anyNonpositive, Except.map,
      formStep, noteConst, checkForm, mmap, mmapStep, pyIndex, NMap.sub, subState, subRound, subinplace, subInit, csUpdate, subAdd, varlocs, varlocKeys,
      PyDict.contains, PyDict.keys, HV.get?, HV.del, pwDom, pw_real, List.findIdx?_cons, List.modify_succ_cons]

theorem seq_gen : genLoop seqHmaps = ⟨[(0, 1), (1, 2), (2, 3)], [0, 1, 2], [1, 1, 1], [⟨[(0, 1), (1, 200)]⟩, ⟨[(0, -(3 / 2)), (1, -1)]⟩, ⟨[(1, -1)]⟩],
    [(0, [0, 1]), (1, [0, 1, 2])], [], [], []⟩ := by
  simp [seqHmaps, genLoop, genStep, expStep, locAppend, PyDict.set, PyDict.get?]

theorem seq_A : (genLoop seqHmaps).A = [(0, 0, 1), (1, 0, -(3 / 2)), (0, 1, 200), (1, 1, -1), (2, 1, -1)] := by
  rw [seq_gen]
  simp [Data.A, Data.colEntries, Data.expOf, HV.get?, PyDict.get?]

/-- what the solver returns -/
noncomputable def seqOut : SolverOut := ⟨1, [0, 0], .nu (fun i => if i = 0 then 1 else if i = 1 then 2 / 3 else 200 - 2 / 3)⟩

/-- the program of the second pass -/
noncomputable def seqProg : SGP.Prog ℕ ℝ :=
  ⟨genLoop seqHmaps, seqHmaps, [1, 1, 1], [⟨[(0, 1), (1, 200)]⟩, ⟨[(0, -(3 / 2)), (1, -1)]⟩, ⟨[(1, -1)]⟩],
    [(0, 0, 1), (1, 1, -1), (0, 1, 200), (1, 0, -(3 / 2)), (2, 1, -1)],
    fun q => if q = 1 then [1, 3] else (SGP.initProg 1 seqHmaps).aIdxs q⟩

theorem seq_aIdxs : (SGP.initProg 1 seqHmaps).aIdxs 1 = [1, 3] := by
  have hk : ks seqHmaps = [1, 1, 1] := by simp [ks, seqHmaps]
  unfold SGP.initProg
  simp only [seq_A, hk]
  simp [seq_gen, List.zipIdx]

theorem seq_replace : SGP.replaceAll (SGP.initProg 1 seqHmaps) [(1, ⟨[(⟨[(0, -(3 / 2)), (1, -1)]⟩, 1)], false⟩)] = .ok seqProg := by
  have hm : ((SGP.initProg 1 seqHmaps).gen.mIdxs[1]?) = some (1, 2) := by
    show (genLoop seqHmaps).mIdxs[1]? = _
    rw [seq_gen]; rfl
  have hg : (SGP.initProg 1 seqHmaps).gen = genLoop seqHmaps := rfl
  have h1 : (SGP.initProg 1 seqHmaps).hmaps = seqHmaps := rfl
  have h2 : (SGP.initProg 1 seqHmaps).A = (genLoop seqHmaps).A := rfl
  have h3 : (SGP.initProg 1 seqHmaps).cs = (genLoop seqHmaps).cs := rfl
  have h4 : (SGP.initProg 1 seqHmaps).exps = (genLoop seqHmaps).exps := rfl
  have h5 : seqHmaps.set 1 ⟨[(⟨[(0, -(3 / 2)), (1, -1)]⟩, 1)], false⟩ = seqHmaps := by simp [seqHmaps]
  have h6 : 1 < seqHmaps.length := by simp [seqHmaps]
  simp only [SGP.replaceAll, List.foldlM_cons, List.foldlM_nil, SGP.replace, hm, seq_aIdxs, h1, h2, h3, h4, h6, if_true, seq_A, h5]
  simp only [hg, seq_gen]
  simp [SGP.termStep, SGP.entryStep, SGP.colOf, Data.varidx, SGP.zeroOut, bind, Except.bind, pure, Except.pure, Except.map, seqProg, seq_gen]

/-- the state of the second pass -/
noncomputable def seqSp : Sp ℕ := ⟨seqProg, ⟨[(0, 1), (1, 1)], [0, 1]⟩, 1⟩

theorem seq_update : seqSetup.update ⟨SGP.initProg 1 seqHmaps, ⟨[(0, 1), (1, 1)], [0, 1]⟩, 1⟩ = .ok seqSp := by
  have ha := seq_approxOf [(0, 1), (1, 1)] (Or.inr rfl)
  have hu : seqSetup.updateForm 1 [(⟨[(0, -(3 / 2))]⟩, 1)] 0 = .ok (1, ⟨[(⟨[(0, -(3 / 2)), (1, -1)]⟩, 1)], false⟩) := by
    unfold Setup.updateForm
    norm_num [seqSetup, slackPow, Nomial.mulTerms, Nomial.mulStep, asHmapslt1, PyDict.get?, PyDict.set, PyDict.del,
      bind, pure, Except.bind, Except.pure, HV.beq_def, List.isPerm, HV.sub, HV.add, HV.scale, dictAdd, dictAddStep, dictScale, HV.empty,
      simplifyPosyIneq, Except.map,
      formStep, noteConst, checkForm, mmap, mmapStep, pyIndex, NMap.sub, subState, subRound, subinplace, subInit, csUpdate, subAdd, varlocs, varlocKeys,
      PyDict.contains, PyDict.keys, HV.get?, HV.del, pwDom, pw_real, List.findIdx?_cons, List.modify_succ_cons]
  unfold Setup.update
  have e1 : seqSetup.sigs.mapM (approxOf seqSetup.feastol seqSetup.vunits seqSetup.ord seqSetup.setord [(0, 1), (1, 1)]) =
      .ok [[[(⟨[(0, -(3 / 2))]⟩, 1)]]] := by
    simp only [seqSetup, List.mapM_cons, List.mapM_nil, ha, bind, pure, Except.bind, Except.pure]
  simp only [e1, List.flatten_cons, List.flatten_nil, List.append_nil, List.zipIdx_cons, List.zipIdx_nil, List.mapM_cons, List.mapM_nil, hu, bind, pure,
    Except.bind, Except.pure, seq_replace]
  rfl

/-- the state after the constructor -/
noncomputable def seqSp0 : Sp ℕ := ⟨SGP.initProg 1 seqHmaps, ⟨[], [0, 1]⟩, 1⟩

theorem seq_pass0 : seqSetup.passes (fun _ _ => .ok seqOut) seqSp0 (none : Option (Guess.Arg ℕ String ℝ)) 0 = .ok (seqSp0, seqOut) := rfl

theorem seq_pass1 : seqSetup.passes (fun _ _ => .ok seqOut) seqSp0 (none : Option (Guess.Arg ℕ String ℝ)) 1 = .ok (seqSp, seqOut) := by
  rw [Setup.passes, seq_pass0]
  have hpt : seqSp0.point seqOut = [(0, 1), (1, 1)] := by
    unfold Sp.point
    have : seqSp0.prog.gen = genLoop seqHmaps := rfl
    rw [this, seq_gen]
    simp [seqOut]
  simp only [bind, Except.bind, hpt]
  unfold Setup.pass Setup.gp
  have hf : falsy (some (Guess.ofSolve (N := String) ([(0, 1), (1, 1)] : PyDict ℕ ℝ))) = false := rfl
  have hg : seqSp0.guess.gp (some (Guess.ofSolve (N := String) [(0, 1), (1, 1)])) true = .ok ⟨[(0, 1), (1, 1)], [0, 1]⟩ := by
    simp [Guess.Sgp.gp, Guess.Sgp.move, Guess.ofSolve, Guess.Arg.look, seqSp0, PyDict.get?, PyDict.set]
  simp only [hf, hg, bind, Except.bind]
  have := seq_update
  simp only [seqSp0, this]
  rfl

theorem seq_localsolve : ∃ r, seqSetup.localsolve (fun _ _ => .ok seqOut) (1 / 1000000) (1 / 10000) 0 0 1 true seqSp0
    (none : Option (Guess.Arg ℕ String ℝ)) = .ok (r, true, false) := by
  have hl : SGP.localsolve (1 / 1000000 : ℝ) (1 / 10000) 1 true (fun n => (seqSetup.passes (fun _ _ => .ok seqOut) seqSp0
      (none : Option (Guess.Arg ℕ String ℝ)) n).toOption.map (fun so => so.2.objective)) = some (.done ⟨2, some 1, some 0, false⟩) := by
    have key : ∀ f : Nat → Option ℝ, f 0 = some 1 → f 1 = some 1 →
        SGP.localsolve (1 / 1000000 : ℝ) (1 / 10000) 1 true f = some (.done ⟨2, some 1, some 0, false⟩) := by
      intro f h0 h1
      norm_num [SGP.localsolve, SGP.localLoop, SGP.localStep, h0, h1]
    exact key _ (by rw [seq_pass0]; rfl) (by rw [seq_pass1]; rfl)
  unfold Setup.localsolve
  rw [hl]
  refine ⟨⟨1, [(0, 1)], [(0, 1)]⟩, ?_⟩
  have hc : generateResult seqSp.data seqOut seqSetup.fixed 0 0 seqSp.prog.A = .ok (⟨1, [(0, 1), (1, 1)], [(0, 1), (1, 1)]⟩, true) := by
    unfold generateResult compileVars
    have hd : seqSp.data = ⟨[(0, 1), (1, 2), (2, 3)], [0, 1, 2], [1, 1, 1], [⟨[(0, 1), (1, 200)]⟩, ⟨[(0, -(3 / 2)), (1, -1)]⟩, ⟨[(1, -1)]⟩],
        [(0, [0, 1]), (1, [0, 1, 2])], [], [], []⟩ := by
      unfold Sp.data
      have : seqSp.prog.gen = genLoop seqHmaps := rfl
      rw [this, seq_gen]
      rfl
    rw [hd]
    simp [seqOut, generateNula, bind, Except.bind, update, seqSetup]
    norm_num [checkSolution, almostEqual, sliceSum, Coot.dot, Coot.tdot, Coot.ncols, seqSp, seqProg,
      dualNan, dualCost, List.range_succ, vec]
  have hs : seqSetup.slack = some 1 := rfl
  show ((seqSetup.passes (fun _ _ => .ok seqOut) seqSp0 (none : Option (Guess.Arg ℕ String ℝ)) 1).bind _) = _
  rw [seq_pass1]
  simp only [bind, Except.bind, hc, dropSlack, hs, PyDict.get?]
  norm_num [PyDict.del, PyDict.get?, pure, Except.pure]

theorem seq_sigOK (x0 : PyDict ℕ ℝ) : ∀ sig ∈ seqSetup.sigs, SigOK seqSetup.vunits seqSetup.ord seqSetup.setord x0 sig := by
  intro sig hs
  have : sig = ⟨seqSig, false⟩ := by simpa [seqSetup] using hs
  subst this
  intro _ posy negy m e c hpn _ _
  have hwf : WF seqSig.hmap.terms := ((termsCanonical_iff _).1 (by norm_num [TermsCanonical, ExpCanonical, seqSig, HV.empty])).1
  obtain ⟨p1, -⟩ := posyNegy_some hwf hpn
  have : posy.hmap.terms = [(HV.empty, 2)] := by
    rw [p1]
    norm_num [seqSig, List.filter_cons]
  rw [this]
  simp [NoClash]

/-- The hypotheses of C62 are met by minimizing `x` subject to `x + x**2 >= 2`: two passes are made, and the check passes without tolerance. -/
example : OK seqSetup ∧ (∀ sig ∈ seqSetup.sigs, SigOK seqSetup.vunits seqSetup.ord seqSetup.setord seqSetup.fixed sig) ∧ OneForm seqSetup ∧
    seqSetup.init = .ok seqSp0 ∧
    (∀ n s' out, n ≤ 1 → seqSetup.passes (fun _ _ => .ok seqOut) seqSp0 (none : Option (Guess.Arg ℕ String ℝ)) n = .ok (s', out) →
      (∀ sig ∈ seqSetup.sigs, SigOK seqSetup.vunits seqSetup.ord seqSetup.setord s'.guess.x0 sig) ∧
      s'.prog.hmaps.map (fun f => f.terms.length) = seqSp0.prog.hmaps.map (fun f => f.terms.length)) ∧
    ∃ r, seqSetup.localsolve (fun _ _ => .ok seqOut) (1 / 1000000) (1 / 10000) 0 0 1 true seqSp0 (none : Option (Guess.Arg ℕ String ℝ)) =
      .ok (r, true, false) := by
  refine ⟨?_, seq_sigOK _, ?_, seq_init, ?_, seq_localsolve⟩
  · refine ⟨by norm_num [seqSetup], ?_, fun l => List.Perm.refl l, ?_, by simp [seqSetup], by simp [seqSetup], ?_, by simp [seqSetup, WF],
      by simp [seqSetup], ?_⟩
    · exact varlocs_valid
    · norm_num [seqSetup, TermsCanonical, ExpCanonical]
    · norm_num [seqSetup, seqSig, TermsTidy, WF, HV.beq_def, List.isPerm, ExpCanonical, UnitOK, unitScale, HV.empty]
      rintro a b (⟨rfl, rfl⟩ | ⟨rfl, rfl⟩ | ⟨rfl, rfl⟩) <;> norm_num
    · intro v hv
      have : v = 1 := by simpa [seqSetup] using hv.symm
      subst this
      simp [seqSetup, seqSig, Absent, HV.empty]
      rintro a b (⟨rfl, rfl⟩ | ⟨rfl, rfl⟩ | ⟨rfl, rfl⟩) <;> norm_num
  · intro hn
    simp [seqSetup] at hn
  · intro n s' out hn h
    refine ⟨seq_sigOK _, ?_⟩
    obtain rfl | rfl : n = 0 ∨ n = 1 := by omega
    · rw [seq_pass0] at h
      cases h
      rfl
    · rw [seq_pass1] at h
      cases h
      rfl

end Verif
