import Verif.Spec.Debug
import Verif.Props.RelaxConst
import Verif.Props.Array

/-! Properties of the diagnosis of infeasible models: C70. -/

set_option linter.unusedSectionVars false

namespace Verif
open PyDict Relax Debug
namespace Debugs

variable {V D : Type} [DecidableEq V] [AddCommGroup D] [DecidableEq D] [Module ℝ D]

/-! ### Bounds -/

theorem mono_holds {E : Env V ℝ D} {se : Bool} {l r : Nomial V ℝ D} {el er : HV V ℝ} {cl cr : ℝ}
    (hl : l.hmap = ⟨[(el, cl)], none⟩) (hr : r.hmap = ⟨[(er, cr)], none⟩) (hel : ExpCanonical el.items) (her : ExpCanonical er.items)
    (hcl : 0 < cl) (hcr : 0 < cr) (hne : el.sub er ≠ HV.empty) :
    ∃ f, genUnsubbed se E.tol l.hmap r.hmap = .ok f ∧
      ∀ pt, (∀ v, 0 < pt v) → ((∀ n ∈ f, termsVal pt n.hmap.terms ≤ 1) ↔ physVal pt l.hmap ≤ physVal pt r.hmap) := by
  have hu : UnitOK (none : Option (UnitQ D ℝ)) := by simp [UnitOK, unitScale]
  obtain ⟨k, hk, hval, h⟩ := genUnsubbed_mono (se := se) (tol := E.tol) (l := l.hmap) (r := r.hmap) (by rw [hl]) (by rw [hr]) hel her hcl hcr
    (by rw [hl]; exact hu) (by rw [hr]; exact hu) (rho := 1) (by rw [hl, hr]; rfl)
  rcases h with ⟨h, _⟩ | ⟨h, _⟩ | ⟨_, n, hn, hterms⟩
  · exact (hne h).elim
  · exact (hne h).elim
  refine ⟨[n], hn, fun pt hpt => ?_⟩
  simp only [List.mem_singleton, forall_eq]
  rw [hterms, hval pt hpt]
  have := physVal_mono_pos (m := r.hmap) (by rw [hr]) hcr (by rw [hr]; exact hu) hpt
  simp only [termsVal_cons, termsVal_nil, add_zero]
  exact (mul_le_iff_le_one_left this).symm

theorem varBounds_ok {E : Env V ℝ D} (v : V) :
    ∃ cs, varBounds E v = .ok cs ∧ (∀ c ∈ cs, c.Faithful) ∧ ∀ pt, (∀ c ∈ cs, c.Holds pt) ↔ 1 / 10 ^ 30 ≤ pt v ∧ pt v ≤ 10 ^ 30 := by
  have hx : ExpCanonical ([(v, 1)] : List (V × ℝ)) := by simp [ExpCanonical]
  have h0 : ExpCanonical (HV.empty : HV V ℝ).items := by simp [ExpCanonical, HV.empty]
  have he : (0 : ℝ) < eps := by unfold eps; positivity
  have he' : (0 : ℝ) < 1 / eps := by positivity
  have hp : (0 : ℝ) < 2 := by norm_num
  have hn1 : ((⟨[(v, 1)]⟩ : HV V ℝ).sub HV.empty) ≠ HV.empty :=
    sub_ne_empty ⟨fun _ => 2, fun _ => hp, by simp [monVal, HV.empty]⟩
  have hn2 : ((HV.empty : HV V ℝ).sub ⟨[(v, 1)]⟩) ≠ HV.empty :=
    sub_ne_empty ⟨fun _ => 2, fun _ => hp, by simp [monVal, HV.empty]⟩
  obtain ⟨f, hf1, hf2⟩ := mono_holds (E := E) (se := false) (l := ⟨numMap ⟨eps, none⟩, .monomial⟩) (r := varNomial (fun _ => none) v) (cl := eps) (cr := 1)
    rfl rfl h0 hx he one_pos hn2
  obtain ⟨g, hg1, hg2⟩ := mono_holds (E := E) (se := false) (l := varNomial (fun _ => none) v) (r := ⟨numMap ⟨1 / eps, none⟩, .monomial⟩) (cl := 1) (cr := 1 / eps)
    rfl rfl hx h0 one_pos he' hn1
  refine ⟨[⟨.posy, varNomial (fun _ => none) v, .ge, ⟨numMap ⟨eps, none⟩, .monomial⟩, f⟩,
    ⟨.posy, varNomial (fun _ => none) v, .le, ⟨numMap ⟨1 / eps, none⟩, .monomial⟩, g⟩], ?_, ?_, ?_⟩
  · unfold varBounds mkPosy
    simp only
    rw [hf1, hg1]; rfl
  · intro c hc
    simp only [List.mem_cons, List.not_mem_nil, or_false] at hc
    rcases hc with rfl | rfl
    · exact hf2
    · exact hg2
  · intro pt
    simp only [List.mem_cons, List.not_mem_nil, or_false, forall_eq_or_imp, forall_eq, Con.Holds]
    rw [physVal_var rfl]
    simp [termsVal, monVal, physVal, numMap, HV.empty, unitScale, eps]

theorem bounds_ok {E : Env V ℝ D} : ∀ l : List V,
    ∃ bs, l.mapM (varBounds E) = .ok bs ∧ (∀ c ∈ bs.flatten, c.Faithful) ∧
      ∀ pt, (∀ c ∈ bs.flatten, c.Holds pt) ↔ ∀ v ∈ l, 1 / 10 ^ 30 ≤ pt v ∧ pt v ≤ 10 ^ 30
  | [] => ⟨[], rfl, by simp, by simp⟩
  | v :: l => by
    obtain ⟨bs, h1, h2, h3⟩ := bounds_ok (E := E) l
    obtain ⟨b, h4, h5, h6⟩ := varBounds_ok (E := E) v
    refine ⟨b :: bs, ?_, ?_, ?_⟩
    · rw [List.mapM_cons, h4]; show (l.mapM (varBounds E) >>= _) = _; rw [h1]; rfl
    · intro c hc
      rw [List.flatten_cons, List.mem_append] at hc
      exact hc.elim (h5 c) (h2 c)
    · intro pt
      simp only [List.flatten_cons, List.mem_append, or_imp, forall_and, List.mem_cons, forall_eq]
      have a := h6 pt
      have b := h3 pt
      simp only [forall_and] at a b
      rw [a, b]
      tauto

/-! ### Relaxed constants -/

/-- The new variables have the units they should have and are none of the model's. -/
structure Fresh (E : Env V ℝ D) (N : Names V) (m : Mdl V ℝ D) : Prop where
  /-- no units -/
  vr : ∀ v, E.vunits (N.rv v) = none
  /-- the constant's units -/
  vn : ∀ v, E.vunits (N.nc v) = E.vunits v
  /-- no units -/
  vc : ∀ i, E.vunits (N.cs i) = none
  /-- units are positive -/
  uok : ∀ v, UnitOK (E.vunits v)
  /-- different constants, different variables -/
  ncinj : ∀ v w, N.nc v = N.nc w → v = w
  /-- relaxations are not constants -/
  rn : ∀ v w, N.rv v ≠ N.nc w
  /-- not a constant -/
  constR : ∀ c ∈ m.consts, ∀ w, N.rv w ≠ c.1
  /-- not a constant -/
  constN : ∀ c ∈ m.consts, ∀ w, N.nc w ≠ c.1
  /-- not a free variable -/
  freeR : ∀ v ∈ m.free, ∀ w, N.rv w ≠ v
  /-- not a free variable -/
  freeN : ∀ v ∈ m.free, ∀ w, N.nc w ≠ v
  /-- not in constraints -/
  conR : ∀ c ∈ m.flat, ∀ w, N.rv w ∉ c.left.hmap.vks ∧ N.rv w ∉ c.right.hmap.vks
  /-- not in constraints -/
  conN : ∀ c ∈ m.flat, ∀ w, N.nc w ∉ c.left.hmap.vks ∧ N.nc w ∉ c.right.hmap.vks
  /-- not in the cost -/
  cost : ∀ w, N.rv w ∉ m.cost.hmap.vks ∧ N.nc w ∉ m.cost.hmap.vks

theorem rel_ok {E : Env V ℝ D} {N : Names V} {m : Mdl V ℝ D} (hf : Fresh E N m) : ∀ l : List (V × ℝ), (∀ c ∈ l, c ∈ m.consts) →
    ∃ rs, l.mapM (fun c => constCons E false (N.rv c.1) (N.nc c.1) c.1) = .ok rs ∧ (∀ c ∈ rs.flatten, c.Faithful) ∧
      ∀ pt, (∀ v, 0 < pt v) → ((∀ c ∈ rs.flatten, c.Holds pt) ↔ ∀ c ∈ l, 1 ≤ pt (N.rv c.1) ∧ pt (N.nc c.1) / pt (N.rv c.1) ≤ pt c.1 ∧
        pt c.1 ≤ pt (N.nc c.1) * pt (N.rv c.1))
  | [], _ => ⟨[], rfl, by simp, by simp⟩
  | c :: l, hl => by
    obtain ⟨bs, h1, h2, h3⟩ := rel_ok hf l (fun c hc => hl c (List.mem_cons_of_mem _ hc))
    have hc := hl c List.mem_cons_self
    obtain ⟨b, h4, h5, h6⟩ := C33_within (E := E) (se := false) (hf.rn c.1 c.1) (hf.constR c hc c.1) (hf.constN c hc c.1) (hf.vr c.1)
      (by rw [hf.vn]; exact hf.uok _) (hf.vn c.1).symm
    refine ⟨b :: bs, ?_, ?_, ?_⟩
    · rw [List.mapM_cons, h4]; show (l.mapM (fun c => constCons E false (N.rv c.1) (N.nc c.1) c.1) >>= _) = _; rw [h1]; rfl
    · intro c hc
      rw [List.flatten_cons, List.mem_append] at hc
      exact hc.elim (h5 c) (h2 c)
    · intro pt hpt
      rw [List.flatten_cons, List.forall_mem_append, h6 pt hpt, h3 pt hpt, List.forall_mem_cons]

/-! ### The cost -/

theorem fold_vars {E : Env V ℝ D} : ∀ (rs : List V), (∀ r ∈ rs, E.vunits r = none) → ∀ {a : Arr.Acc V ℝ D}, a.units = none → 0 < a.c →
    ∃ b, (rs.map (fun r => PyVal.nom (varNomial E.vunits r))).foldlM Arr.prodStep a = some b ∧ 0 < b.c ∧ b.units = none
  | [], _, a, hu, hc => ⟨a, rfl, hc, hu⟩
  | r :: rs, hr, a, hu, hc => by
    have h1 : Arr.prodStep a (.nom (varNomial E.vunits r)) = some ⟨a.c * 1, a.exp.add ⟨[(r, 1)]⟩, none⟩ := by
      unfold Arr.prodStep varNomial
      simp only [hr r List.mem_cons_self, hu]
    rw [List.map_cons, List.foldlM_cons, h1]
    exact fold_vars rs (fun r h => hr r (List.mem_cons_of_mem _ h)) (a := ⟨a.c * 1, a.exp.add ⟨[(r, 1)]⟩, none⟩) rfl (by simpa using hc)

theorem mkSig_mono {e : HV V ℝ} {c : ℝ} {u : Option (UnitQ D ℝ)} (hc : 0 < c) :
    mkSig false true (⟨[(e, c)], u⟩ : NMap V ℝ D) = .ok ⟨⟨[(e, c)], u⟩, .monomial⟩ := by
  unfold mkSig
  rw [if_neg (by simpa [NMap.anyNonpositive] using hc)]
  simp

/-- The cost of a program with relaxations can be built, and is the product of the relaxations to the power of 30 times the cost. -/
theorem feasCost_ok {E : Env V ℝ D} {rs : List V} (hne : rs ≠ []) (hr : ∀ r ∈ rs, E.vunits r = none) {cost : Nomial V ℝ D}
    (hg : (PyVal.nom cost).Good) (hp : cost.AllPos) :
    ∃ n, feasCost E rs cost = .ok n ∧ ∀ pt, (∀ v, 0 < pt v) → physVal pt n.hmap = (rs.map pt).prod ^ 30 * physVal pt cost.hmap := by
  have hgv : ∀ e ∈ rs.map (fun r => PyVal.nom (varNomial E.vunits r)), e.Good := by
    intro e he
    obtain ⟨r, h1, rfl⟩ := List.mem_map.1 he
    exact good_varOne (by rw [hr r h1]; simp [UnitOK, unitScale])
  obtain ⟨b, hb1, hb2, hb3⟩ := fold_vars (E := E) rs hr (a := ⟨1, HV.empty, none⟩) rfl one_pos
  have h1 : Arr.prod false (rs.map (fun r => PyVal.nom (varNomial E.vunits r))) = .ok (.nom ⟨⟨[(b.exp, b.c)], none⟩, .monomial⟩) := by
    unfold Arr.prod
    rw [if_neg (by simpa using hne), hb1]
    dsimp only
    rw [hb3, mkSig_mono hb2]; rfl
  have hgn : (PyVal.nom (⟨⟨[(b.exp, b.c)], none⟩, .monomial⟩ : Nomial V ℝ D)).Good :=
    good_mkSig (by simp [UnitOK, unitScale]) (mkSig_mono (e := b.exp) (u := (none : Option (UnitQ D ℝ))) hb2)
  have h2 : PyVal.pow false (PyVal.nom (⟨⟨[(b.exp, b.c)], none⟩, .monomial⟩ : Nomial V ℝ D)) (.int 30) =
      .ok (.nom ⟨⟨[(b.exp.scale 30, b.c ^ (30 : ℝ))], none⟩, .monomial⟩) := by
    unfold PyVal.pow Nomial.monoPow
    have : (30 : ℝ) ≠ 0 := by norm_num
    simp only [PyExpo.toK, if_true, Int.cast_ofNat, if_pos this, Option.map_none, pw_real]
    rw [mkSig_mono (Real.rpow_pos_of_pos hb2 _)]; rfl
  obtain ⟨hgq, hq⟩ := pyPow_ok hgn h2
  have hpos : ∀ t ∈ Nomial.mulTerms [(b.exp.scale 30, b.c ^ (30 : ℝ))] cost.hmap.terms, 0 < t.2 :=
    mulTerms_pos (by intro t ht; simp only [List.mem_singleton] at ht; rw [ht]; exact Real.rpow_pos_of_pos hb2 _) hp
  obtain ⟨n, h3⟩ : ∃ n, Nomial.mul false ⟨⟨[(b.exp.scale 30, b.c ^ (30 : ℝ))], none⟩, .monomial⟩ cost = .ok n := by
    unfold Nomial.mul mkSig
    rw [if_neg]
    · simp only
      split
      · exact ⟨_, rfl⟩
      · exact ⟨_, rfl⟩
    · simp only [NMap.anyNonpositive, List.any_eq_true, decide_eq_true_eq, not_exists, not_and, not_le]
      have : ((⟨Nomial.mulTerms [(b.exp.scale 30, b.c ^ (30 : ℝ))] cost.hmap.terms, none⟩ : NMap V ℝ D).unitsOfProduct none cost.hmap.units).terms =
          Nomial.mulTerms [(b.exp.scale 30, b.c ^ (30 : ℝ))] cost.hmap.terms := by
        unfold NMap.unitsOfProduct
        cases cost.hmap.units <;> rfl
      rw [this]
      exact hpos
  refine ⟨n, ?_, ?_⟩
  · unfold feasCost
    rw [h1]
    show (PyVal.pow false _ _ >>= _) = _
    rw [h2]
    show (PyVal.mul false _ _ >>= _) = _
    have h4 : PyVal.mul false (.nom ⟨⟨[(b.exp.scale 30, b.c ^ (30 : ℝ))], none⟩, .monomial⟩) (.nom cost) = .ok (.nom n) := by
      show (Nomial.mul false _ _ >>= _) = _
      rw [h3]; rfl
    rw [h4]; rfl
  · intro pt hpt
    rw [(mul_ok hgq hg h3).2 pt hpt]
    have h4 := hq pt hpt
    have h5 := C45_prod hgv h1 pt hpt
    simp only [PyVal.phys] at h4 h5
    rw [h4, h5, List.map_map]
    have : ((PyExpo.int 30 : PyExpo ℝ).toK) = ((30 : ℕ) : ℝ) := by norm_num [PyExpo.toK]
    rw [this, Real.rpow_natCast]
    congr 3
    apply List.map_congr_left
    intro r hr'
    show physVal pt (varNomial E.vunits r).hmap = _
    exact physVal_var (hr r hr') pt

/-! ### The programs -/

theorem prog1_ok {E : Env V ℝ D} {N : Names V} {m : Mdl V ℝ D} (hf : Fresh E N m) (hs : m.hasSubs = true) (hne : m.relaxable ≠ [])
    (hg : (PyVal.nom m.cost).Good) (hp : m.cost.AllPos) :
    ∃ p, prog1 E N m = .ok p ∧ ((∀ c ∈ m.flat, c.Faithful) → ∀ c ∈ p.cons, c.Faithful) ∧
      p.subs = m.zeros ++ m.relaxable.map (fun c => (N.nc c.1, c.2)) ∧
      (∀ pt, (∀ v, 0 < pt v) → physVal pt p.cost.hmap = (m.relaxable.map (fun c => pt (N.rv c.1))).prod ^ 30 * physVal pt m.cost.hmap) ∧
      ∀ pt, (∀ v, 0 < pt v) → ((∀ c ∈ p.cons, c.Holds pt) ↔ (∀ c ∈ m.flat, c.Holds pt) ∧ (∀ v ∈ m.free, 1 / 10 ^ 30 ≤ pt v ∧ pt v ≤ 10 ^ 30) ∧
        ∀ c ∈ m.relaxable, 1 ≤ pt (N.rv c.1) ∧ pt (N.nc c.1) / pt (N.rv c.1) ≤ pt c.1 ∧ pt c.1 ≤ pt (N.nc c.1) * pt (N.rv c.1)) := by
  obtain ⟨bs, h1, h2, h3⟩ := bounds_ok (E := E) m.free
  obtain ⟨rs, h4, h5, h6⟩ := rel_ok hf m.relaxable (fun c hc => (List.mem_filter.1 hc).1)
  obtain ⟨n, h7, h8⟩ := feasCost_ok (E := E) (rs := m.relaxable.map (fun c => N.rv c.1)) (by simpa using hne)
    (by intro r hr; obtain ⟨c, _, rfl⟩ := List.mem_map.1 hr; exact hf.vr _) hg hp
  refine ⟨⟨n, m.flat ++ bs.flatten ++ rs.flatten, m.zeros ++ m.relaxable.map (fun c => (N.nc c.1, c.2))⟩, ?_, ?_, rfl, ?_, ?_⟩
  · unfold prog1
    rw [h1]
    show (if m.hasSubs then _ else _) = _
    rw [if_pos hs, h4]
    show (feasCost E _ _ >>= _) = _
    rw [h7]; rfl
  · intro hfl c hc
    rcases List.mem_append.1 hc with hc | hc
    · exact (List.mem_append.1 hc).elim (hfl c) (h2 c)
    · exact h5 c hc
  · intro pt hpt
    rw [h8 pt hpt, List.map_map]; rfl
  · intro pt hpt
    rw [List.forall_mem_append, List.forall_mem_append, h3 pt, h6 pt hpt, and_assoc]

theorem prog2_ok {E : Env V ℝ D} {N : Names V} {m : Mdl V ℝ D} (hf : Fresh E N m) {p : Prog V ℝ D} (h : prog2 E N m = .ok p)
    (hg : ∀ c ∈ m.flat, (PyVal.nom c.left).Good ∧ (PyVal.nom c.right).Good) {pt : V → ℝ} (hpt : ∀ v, 0 < pt v) :
    p.subs = m.consts ∧ m.flat.length ≤ m.top.length ∧ ((∀ c ∈ p.cons, c.Holds pt) ↔ (∀ C ∈ m.relaxvars N, 1 ≤ pt C) ∧
      ∀ q ∈ m.flat.zip (m.relaxvars N), q.1.HoldsWithin (pt q.2) pt) := by
  unfold prog2 at h
  obtain ⟨rel, h1, h2⟩ := except_bind_ok h
  obtain ⟨cost, h3, h4⟩ := except_bind_ok h2
  cases h4
  have hC : ∀ C ∈ m.relaxvars N, E.vunits C = none := by
    intro C hC
    obtain ⟨i, _, rfl⟩ := List.mem_map.1 hC
    exact hf.vc i
  obtain ⟨h5, h6⟩ := C32_each hC hg h1 hpt
  refine ⟨rfl, ?_, h6⟩
  simpa [Mdl.relaxvars] using h5

theorem rescue_ok {α : Type} {r : Except Fail α} {alt : Except Fail (Option α)} {o : Option α} (h : rescue r alt = .ok o) :
    (∃ d, r = .ok d ∧ o = some d) ∨ (r = .error .infeasible ∧ alt = .ok o) := by
  unfold rescue at h
  split at h
  · cases h; exact Or.inl ⟨_, rfl, rfl⟩
  · exact Or.inr ⟨rfl, h⟩
  · cases h

theorem raised_ok {α : Type} {r : Except Err α} {a : α} (h : raised r = .ok a) : r = .ok a := by
  unfold raised at h
  split at h
  · cases h; rfl
  · cases h

theorem check1_ok {N : Names V} {m : Mdl V ℝ D} {pt : V → ℝ} {d : Diag V ℝ} (h : check1 N m pt = .ok d) : d.stage = .constants ∧ d.pt = pt ∧
    m.hasSubs = true ∧ getRelaxed (m.relaxable.map (fun c => pt (N.rv c.1))) (m.relaxable.map (fun c => c.1)) = .ok d.consts ∧ d.traints = [] := by
  unfold check1 at h
  split at h
  · rename_i h3
    split at h
    · rename_i r h4
      cases h
      exact ⟨rfl, rfl, h3, h4, rfl⟩
    · cases h
  · cases h

theorem check1_not {N : Names V} {m : Mdl V ℝ D} {pt : V → ℝ} : check1 N m pt ≠ .error .infeasible := by
  unfold check1
  split
  · split <;> simp
  · simp

theorem check2_ok {N : Names V} {m : Mdl V ℝ D} {pt : V → ℝ} {d : Diag V ℝ} (h : check2 N m pt = .ok d) : d.stage = .constraints ∧ d.pt = pt ∧
    getRelaxed ((m.relaxvars N).map pt) (List.range m.flat.length) = .ok d.traints ∧ d.consts = [] := by
  unfold check2 at h
  split at h
  · rename_i r h3
    split at h
    · cases h
      exact ⟨rfl, rfl, h3, rfl⟩
    · cases h
  · cases h

theorem check2_not {N : Names V} {m : Mdl V ℝ D} {pt : V → ℝ} : check2 N m pt ≠ .error .infeasible := by
  unfold check2
  split
  · split <;> simp
  · simp

theorem attempt_ok {S : Solver V ℝ D} {p : Prog V ℝ D} {pt : V → ℝ} : S.attempt p = .ok pt ↔ S.Finds p pt := by
  unfold Solver.attempt Solver.Finds
  rcases S.gp p with e | x
  · cases e <;> simp
  · simp

theorem attempt_infeasible {S : Solver V ℝ D} {p : Prog V ℝ D} : S.attempt p = .error .infeasible ↔ S.Refuses p := by
  unfold Solver.attempt Solver.Refuses
  rcases S.gp p with e | x
  · cases e <;> simp
  · simp

/-- What `debug` has done if it returns. -/
theorem debug_ok {S : Solver V ℝ D} {E : Env V ℝ D} {N : Names V} {m : Mdl V ℝ D} {o : Option (Diag V ℝ)} (h : debug S E N m = .ok o) :
    ∃ p, prog1 E N m = .ok p ∧
      ((∃ d, o = some d ∧ S.Finds p d.pt ∧ check1 N m d.pt = .ok d) ∨
       (S.Refuses p ∧ ∃ q, prog2 E N m = .ok q ∧
        ((∃ d, o = some d ∧ S.Finds q d.pt ∧ check2 N m d.pt = .ok d) ∨ (S.Refuses q ∧ o = none)))) := by
  unfold debug at h
  obtain ⟨p, h1, h2⟩ := except_bind_ok h
  refine ⟨p, raised_ok h1, ?_⟩
  rcases rescue_ok h2 with ⟨d, h3, rfl⟩ | ⟨h3, h4⟩
  · obtain ⟨pt, h5, h6⟩ := except_bind_ok h3
    have := (check1_ok h6).2.1
    subst this
    exact Or.inl ⟨d, rfl, attempt_ok.1 h5, h6⟩
  · refine Or.inr ⟨?_, ?_⟩
    · refine attempt_infeasible.1 ?_
      cases h5 : S.attempt p with
      | ok pt => rw [h5] at h3; exact (check1_not h3).elim
      | error e => rw [h5] at h3; cases h3; rfl
    · unfold second at h4
      obtain ⟨q, h5, h6⟩ := except_bind_ok h4
      refine ⟨q, raised_ok h5, ?_⟩
      rcases rescue_ok h6 with ⟨d, h7, rfl⟩ | ⟨h7, h8⟩
      · obtain ⟨pt, h9, h10⟩ := except_bind_ok h7
        have := (check2_ok h10).2.1
        subst this
        exact Or.inl ⟨d, rfl, attempt_ok.1 h9, h10⟩
      · cases h8
        refine Or.inr ⟨?_, rfl⟩
        refine attempt_infeasible.1 ?_
        cases h9 : S.attempt q with
        | ok pt => rw [h9] at h7; exact (check2_not h7).elim
        | error e => rw [h9] at h7; cases h7; rfl

theorem consts_relaxable {m : Mdl V ℝ D} (hpos : ∀ c ∈ m.consts, 0 < c.2) : m.relaxable = m.consts ∧ m.zeros = [] := by
  constructor
  · unfold Mdl.relaxable
    rw [List.filter_eq_self]
    intro c hc
    simpa using (hpos c hc).ne'
  · unfold Mdl.zeros
    rw [List.filter_eq_nil_iff]
    intro c hc
    simpa using (hpos c hc).ne'

/-- What a model asks for, as far as these theorems go: the cost is a posynomial, constants are positive, there are some, and sides of constraints are what
arithmetic on nomials gives (C01, C05). -/
structure Usual (m : Mdl V ℝ D) : Prop where
  /-- a posynomial -/
  cost : (PyVal.nom m.cost).Good ∧ m.cost.AllPos
  /-- positive -/
  pos : ∀ c ∈ m.consts, 0 < c.2
  /-- there are constants -/
  subs : m.hasSubs = true ∧ m.consts ≠ []
  /-- the sides of constraints -/
  sides : ∀ c ∈ m.flat, (PyVal.nom c.left).Good ∧ (PyVal.nom c.right).Good

end Debugs
open Debugs
variable {V D : Type} [DecidableEq V] [AddCommGroup D] [DecidableEq D] [Module ℝ D]

/-- C70, constants. If `debug` returns a solution with relaxed constants, all constraints of the model hold as written, the free variables lie between the
bounds, and each constant lies within its relaxation, which is at least 1, of the value it was given. Constants without a warning lie within one percent. -/
theorem C70_constants_partial {S : Solver V ℝ D} {E : Env V ℝ D} {N : Names V} {m : Mdl V ℝ D} (hS : ∀ p, prog1 E N m = .ok p ∨ prog2 E N m = .ok p → S.SoundAt p)
    (hf : Fresh E N m) (hm : Usual m) {d : Diag V ℝ} (h : debug S E N m = .ok (some d)) (hs : d.stage = .constants) :
    (∀ c ∈ m.flat, c.Holds d.pt) ∧ (∀ v ∈ m.free, 1 / 10 ^ 30 ≤ d.pt v ∧ d.pt v ≤ 10 ^ 30) ∧
    ∀ c ∈ m.consts, ∃ r, 1 ≤ r ∧ c.2 / r ≤ d.pt c.1 ∧ d.pt c.1 ≤ c.2 * r ∧ ((r, c.1) ∈ d.consts ∨ r ≤ 101 / 100) := by
  obtain ⟨hrel, hz⟩ := consts_relaxable hm.pos
  obtain ⟨p, h1, h2⟩ := debug_ok h
  obtain ⟨p', h3, _, h5, _, h6⟩ := prog1_ok hf hm.subs.1 (by rw [hrel]; exact hm.subs.2) hm.cost.1 hm.cost.2
  rw [h1] at h3
  cases h3
  rcases h2 with ⟨d', h7, h8, h9⟩ | ⟨_, q, _, ⟨d', h7, _, h9⟩ | ⟨_, h7⟩⟩
  · cases h7
    obtain ⟨hpt, hsub, hcons⟩ := hS p (Or.inl h1) d.pt h8
    obtain ⟨h10, h11, h12⟩ := (h6 d.pt hpt).1 hcons
    refine ⟨h10, h11, fun c hc => ⟨d.pt (N.rv c.1), ?_⟩⟩
    have hc' : c ∈ m.relaxable := by rw [hrel]; exact hc
    obtain ⟨h13, h14, h15⟩ := h12 c hc'
    have hval : d.pt (N.nc c.1) = c.2 := hsub (N.nc c.1, c.2) (by rw [h5]; exact List.mem_append_right _ (List.mem_map.2 ⟨c, hc', rfl⟩))
    rw [hval] at h14 h15
    refine ⟨h13, h14, h15, ?_⟩
    obtain ⟨_, _, _, h16, _⟩ := check1_ok h9
    by_cases hr : d.pt (N.rv c.1) ≤ 101 / 100
    · exact Or.inr hr
    refine Or.inl ?_
    have hmem : (d.pt (N.rv c.1), c.1) ∈ (m.relaxable.map (fun c => d.pt (N.rv c.1))).zip (m.relaxable.map (fun c => c.1)) := by
      rw [List.zip_map', List.mem_map]
      exact ⟨c, hc', rfl⟩
    obtain ⟨out, h17, h18⟩ := C33_threshold_partial (List.ne_nil_of_mem hmem)
    rw [h16] at h17
    cases h17
    exact h18 _ hmem (not_le.1 hr)
  · cases h7
    rw [(check2_ok h9).1] at hs
    cases hs
  · cases h7

/-- C70, constraints. If `debug` returns a solution with relaxed constraints, the constants are as given and each constraint holds within its relaxation, which
is at least 1. Constraints without a warning hold within one percent. -/
theorem C70_constraints_partial {S : Solver V ℝ D} {E : Env V ℝ D} {N : Names V} {m : Mdl V ℝ D} (hS : ∀ p, prog1 E N m = .ok p ∨ prog2 E N m = .ok p → S.SoundAt p)
    (hf : Fresh E N m) (hm : Usual m) {d : Diag V ℝ} (h : debug S E N m = .ok (some d)) (hs : d.stage = .constraints) :
    (∀ c ∈ m.consts, d.pt c.1 = c.2) ∧
    ∀ i c, m.flat[i]? = some c → ∃ r, 1 ≤ r ∧ c.HoldsWithin r d.pt ∧ ((r, i) ∈ d.traints ∨ r ≤ 101 / 100) := by
  obtain ⟨p, _, h2⟩ := debug_ok h
  rcases h2 with ⟨d', h7, _, h9⟩ | ⟨_, q, h1, ⟨d', h7, h8, h9⟩ | ⟨_, h7⟩⟩
  · cases h7
    rw [(check1_ok h9).1] at hs
    cases hs
  · cases h7
    obtain ⟨hpt, hsub, hcons⟩ := hS q (Or.inr h1) d.pt h8
    obtain ⟨h3, h4, h5⟩ := prog2_ok hf h1 hm.sides hpt
    rw [h3] at hsub
    obtain ⟨h6, h10⟩ := h5.1 hcons
    refine ⟨hsub, fun i c hc => ⟨d.pt (N.cs i), ?_⟩⟩
    have hi : i < m.flat.length := (List.getElem?_eq_some_iff.1 hc).1
    have hi' : i < m.top.length := lt_of_lt_of_le hi h4
    have hC : N.cs i ∈ m.relaxvars N := List.mem_map.2 ⟨i, List.mem_range.2 hi', rfl⟩
    have hz : (m.flat.zip (m.relaxvars N))[i]? = some (c, N.cs i) := by
      rw [List.getElem?_zip_eq_some]
      refine ⟨hc, ?_⟩
      simp [Mdl.relaxvars, hi']
    refine ⟨h6 _ hC, h10 _ (List.mem_of_getElem? hz), ?_⟩
    by_cases hr : d.pt (N.cs i) ≤ 101 / 100
    · exact Or.inr hr
    refine Or.inl ?_
    have hmem : (((m.relaxvars N).map d.pt).zip (List.range m.flat.length))[i]? = some (d.pt (N.cs i), i) := by
      rw [List.getElem?_zip_eq_some]
      constructor
      · simp [Mdl.relaxvars, hi']
      · simp [hi]
    have hmem := List.mem_of_getElem? hmem
    obtain ⟨out, h17, h18⟩ := C33_threshold_partial (List.ne_nil_of_mem hmem)
    rw [(check2_ok h9).2.2.1] at h17
    cases h17
    exact h18 _ hmem (not_le.1 hr)
  · cases h7

namespace Debugs

theorem physVal_congr {pt pt' : V → ℝ} {h : NMap V ℝ D} (hv : ∀ v ∈ h.vks, pt v = pt' v) : physVal pt h = physVal pt' h := by
  unfold physVal
  rw [termsVal_congr]
  intro t ht kx hk
  exact hv _ (mem_vks_items.2 ⟨t, ht, kx.2, hk⟩)

open Classical in
/-- A feasible point with all relaxations 1. -/
noncomputable def extend (N : Names V) (pt : V → ℝ) (v : V) : ℝ :=
  if ∃ w, N.rv w = v then 1 else if h : ∃ w, N.nc w = v then pt h.choose else pt v

theorem extend_rv (N : Names V) (pt : V → ℝ) (w : V) : extend N pt (N.rv w) = 1 := if_pos ⟨w, rfl⟩

theorem extend_nc {N : Names V} (pt : V → ℝ) (hrn : ∀ v w, N.rv v ≠ N.nc w) (hi : ∀ v w, N.nc v = N.nc w → v = w) (w : V) : extend N pt (N.nc w) = pt w := by
  have h : ∃ w', N.nc w' = N.nc w := ⟨w, rfl⟩
  unfold extend
  rw [if_neg (by rintro ⟨v, hv⟩; exact hrn _ _ hv), dif_pos h, hi _ _ h.choose_spec]

theorem extend_old {N : Names V} (pt : V → ℝ) {v : V} (h1 : ∀ w, N.rv w ≠ v) (h2 : ∀ w, N.nc w ≠ v) : extend N pt v = pt v := by
  unfold extend
  rw [if_neg (by rintro ⟨w, hw⟩; exact h1 _ hw), dif_neg (by rintro ⟨w, hw⟩; exact h2 _ hw)]

theorem extend_pos (N : Names V) {pt : V → ℝ} (h : ∀ v, 0 < pt v) (v : V) : 0 < extend N pt v := by
  unfold extend
  split
  · exact one_pos
  · split
    · exact h _
    · exact h _

end Debugs

/-- C70, feasible models. If the model has a feasible point between the bounds and solving is exact, `debug` relaxes constants only, and no further than pays: the
cost it reports, times the product of all relaxations to the power of 30, is not above the cost of any feasible point. -/
theorem C70_feasible_partial {S : Solver V ℝ D} (hS : S.Exact) {E : Env V ℝ D} {N : Names V} {m : Mdl V ℝ D} (hf : Fresh E N m) (hm : Usual m) {pt : V → ℝ}
    (hpt : m.Feasible pt) {o : Option (Diag V ℝ)} (h : debug S E N m = .ok o) :
    ∃ d, o = some d ∧ d.stage = .constants ∧
      (m.consts.map (fun c => d.pt (N.rv c.1))).prod ^ 30 * physVal d.pt m.cost.hmap ≤ physVal pt m.cost.hmap := by
  obtain ⟨hrel, hz⟩ := consts_relaxable hm.pos
  obtain ⟨p, h1, h2⟩ := debug_ok h
  obtain ⟨p', h3, _, h5, h6, h7⟩ := prog1_ok hf hm.subs.1 (by rw [hrel]; exact hm.subs.2) hm.cost.1 hm.cost.2
  rw [h1] at h3
  cases h3
  obtain ⟨hp1, hp2, hp3, hp4⟩ := hpt
  have hepos := extend_pos N hp1
  have hside : ∀ c ∈ m.flat, (∀ v ∈ c.left.hmap.vks, extend N pt v = pt v) ∧ ∀ v ∈ c.right.hmap.vks, extend N pt v = pt v := by
    intro c hc
    refine ⟨fun v hv => extend_old pt ?_ ?_, fun v hv => extend_old pt ?_ ?_⟩
    · rintro w rfl; exact (hf.conR c hc w).1 hv
    · rintro w rfl; exact (hf.conN c hc w).1 hv
    · rintro w rfl; exact (hf.conR c hc w).2 hv
    · rintro w rfl; exact (hf.conN c hc w).2 hv
  have hmeets : p.Meets (extend N pt) := by
    refine ⟨hepos, ?_, (h7 _ hepos).2 ⟨?_, ?_, ?_⟩⟩
    · intro s hs
      rw [h5, hz, hrel, List.nil_append] at hs
      obtain ⟨c, hc, rfl⟩ := List.mem_map.1 hs
      rw [extend_nc pt hf.rn hf.ncinj]
      exact hp2 c hc
    · intro c hc
      have := hp3 c hc
      unfold Con.Holds at this ⊢
      rw [physVal_congr (hside c hc).1, physVal_congr (hside c hc).2]
      exact this
    · intro v hv
      rw [extend_old pt (hf.freeR v hv) (hf.freeN v hv)]
      exact hp4 v hv
    · intro c hc
      rw [hrel] at hc
      rw [extend_rv, extend_nc pt hf.rn hf.ncinj, extend_old pt (hf.constR c hc) (hf.constN c hc)]
      simp
  have hcost : physVal (extend N pt) p.cost.hmap = physVal pt m.cost.hmap := by
    rw [h6 _ hepos]
    have : (m.relaxable.map (fun c => extend N pt (N.rv c.1))).prod = 1 := by
      apply List.prod_eq_one
      intro x hx
      obtain ⟨c, _, rfl⟩ := List.mem_map.1 hx
      exact extend_rv N pt _
    rw [this, one_pow, one_mul]
    apply physVal_congr
    intro v hv
    apply extend_old pt
    · rintro w rfl; exact (hf.cost w).1 hv
    · rintro w rfl; exact (hf.cost w).2 hv
  rcases h2 with ⟨d, rfl, h8, h9⟩ | ⟨h8, _⟩
  · refine ⟨d, rfl, (check1_ok h9).1, ?_⟩
    have := hS.2.1 p d.pt _ h8 hmeets
    rw [hcost, h6 d.pt (hS.1 p _ h8).1, hrel] at this
    exact this
  · exact (hS.2.2 p h8 ⟨_, hmeets⟩).elim

/-- C70, solvers. For a model whose constraints reach the solver as they are (C12, C14), both programs can be built, if the second one has a relaxation for each
constraint, and all their constraints reach the solver as they are. So it is enough if solutions satisfy what the solver is given. -/
theorem C70_programs {E : Env V ℝ D} (htol : 0 ≤ E.tol) {N : Names V} {m : Mdl V ℝ D} (hf : Fresh E N m) (hm : Usual m) (hfl : ∀ c ∈ m.flat, c.Faithful)
    (hposy : ∀ c ∈ m.flat, PosyCon c ∧ ∀ i, Con.Fine c (N.cs i)) (hlen : m.flat.length ≤ m.top.length) (hne : m.top ≠ []) :
    ∃ p q, prog1 E N m = .ok p ∧ prog2 E N m = .ok q ∧ (∀ c ∈ p.cons, c.Faithful) ∧ (∀ c ∈ q.cons, c.Faithful) ∧
      ∀ S : Solver V ℝ D, S.SoundForms → S.SoundAt p ∧ S.SoundAt q := by
  obtain ⟨hrel, hz⟩ := consts_relaxable hm.pos
  obtain ⟨p, h1, h2, _⟩ := prog1_ok hf hm.subs.1 (by rw [hrel]; exact hm.subs.2) hm.cost.1 hm.cost.2
  have hC : ∀ C ∈ m.relaxvars N, E.vunits C = none := by
    intro C hC
    obtain ⟨i, _, rfl⟩ := List.mem_map.1 hC
    exact hf.vc i
  obtain ⟨cs, h3, h4⟩ := C32_each_solver_partial htol (se := false) hC (flat := m.flat) (fun c hc => ⟨(hposy c hc).1, fun C hC' => by
    obtain ⟨i, _, rfl⟩ := List.mem_map.1 hC'
    exact (hposy c hc).2 i⟩) (by simpa [Mdl.relaxvars] using hlen)
  obtain ⟨n, h5, _⟩ := feasCost_ok (E := E) (rs := m.relaxvars N) (by simpa [Mdl.relaxvars] using hne) hC hm.cost.1 hm.cost.2
  refine ⟨p, ⟨n, cs, m.consts⟩, h1, ?_, h2 hfl, h4, fun S hS => ⟨fun pt hpt => ?_, fun pt hpt => ?_⟩⟩
  · unfold prog2
    rw [h3]
    show (feasCost E _ _ >>= _) = _
    rw [h5]; rfl
  · obtain ⟨h6, h7, h8⟩ := hS p pt hpt
    exact ⟨h6, h7, fun c hc => (h2 hfl c hc pt h6).1 (h8 c hc)⟩
  · obtain ⟨h6, h7, h8⟩ := hS _ pt hpt
    exact ⟨h6, h7, fun c hc => (h4 c hc pt h6).1 (h8 c hc)⟩

/-- C70, no exceptions. For a model of posynomial constraints without sets inside it, `debug` returns whenever solving ends with a point or says that the program is
infeasible. -/
theorem C70_returns_partial {S : Solver V ℝ D} (hS : S.Ends) {E : Env V ℝ D} (htol : 0 ≤ E.tol) {N : Names V} {m : Mdl V ℝ D} (hf : Fresh E N m) (hm : Usual m)
    (hfl : ∀ c ∈ m.flat, c.Faithful) (hposy : ∀ c ∈ m.flat, PosyCon c ∧ ∀ i, Con.Fine c (N.cs i)) (htop : ∀ e ∈ m.top, ∃ c, e = .one c) (hne : m.top ≠ []) :
    ∃ o, debug S E N m = .ok o ∧ (o = none → ∃ p q, prog1 E N m = .ok p ∧ prog2 E N m = .ok q ∧ S.Refuses p ∧ S.Refuses q) := by
  obtain ⟨hrel, hz⟩ := consts_relaxable hm.pos
  have hlen : m.flat.length = m.top.length := by
    unfold Mdl.flat
    rw [List.length_flatMap]
    have : m.top.map (fun e => e.cons.length) = m.top.map (fun _ => 1) := by
      apply List.map_congr_left
      intro e he
      obtain ⟨c, rfl⟩ := htop e he
      rfl
    rw [this]
    simp
  obtain ⟨p, q, h1, h2, _⟩ := C70_programs htol hf hm hfl hposy hlen.le hne
  have hc1 : ∀ pt, ∃ d, check1 N m pt = .ok d := by
    intro pt
    unfold check1
    rw [if_pos hm.subs.1]
    obtain ⟨out, h, _⟩ := C33_threshold_partial (vals := m.relaxable.map (fun c => pt (N.rv c.1))) (mapped := m.relaxable.map (fun c => c.1))
      (by rw [List.zip_map', hrel]; simpa using hm.subs.2)
    rw [h]
    exact ⟨_, rfl⟩
  have hc2 : ∀ pt, ∃ d, check2 N m pt = .ok d := by
    intro pt
    unfold check2
    have hz0 : ((m.relaxvars N).map pt).zip (List.range m.flat.length) ≠ [] := by
      intro h
      have := congrArg List.length h
      rw [List.length_zip, hlen] at this
      simp [Mdl.relaxvars] at this
      exact hne this
    obtain ⟨out, h, _⟩ := C33_threshold_partial (vals := (m.relaxvars N).map pt) (mapped := List.range m.flat.length) hz0
    rw [h]
    dsimp only
    obtain ⟨us, h3⟩ := mapM_total (f := fun x : ℝ × ℕ => leftOf m x.2) (l := out) (by
      intro x hx
      obtain ⟨_, _, _, _, _, h5⟩ := C33_report h
      have h6 := (List.mem_filter.1 (h5.mem_iff.1 hx)).1
      have h7 : x.2 < m.flat.length := List.mem_range.1 (List.of_mem_zip (a := x.1) (b := x.2) h6).2
      rw [hlen] at h7
      obtain ⟨c, hc⟩ := htop m.top[x.2] (List.getElem_mem h7)
      refine ⟨(), ?_⟩
      unfold leftOf
      rw [List.getElem?_eq_getElem h7, hc])
    rw [h3]
    exact ⟨_, rfl⟩
  have hd : debug S E N m = rescue (S.attempt p >>= check1 N m) (second S E N m) := by
    unfold debug; rw [h1]; rfl
  have hs : second S E N m = rescue (S.attempt q >>= check2 N m) (.ok none) := by
    unfold second; rw [h2]; rfl
  rw [hd, hs]
  rcases hS p with ⟨pt, h3⟩ | h3
  · obtain ⟨d, h4⟩ := hc1 pt
    refine ⟨some d, ?_, by simp⟩
    rw [attempt_ok.2 h3]; show rescue (check1 N m pt) _ = _; rw [h4]; rfl
  · rw [attempt_infeasible.2 h3]
    rcases hS q with ⟨pt, h5⟩ | h5
    · obtain ⟨d, h6⟩ := hc2 pt
      refine ⟨some d, ?_, by simp⟩
      show rescue _ (.ok none) = _
      rw [attempt_ok.2 h5]; show rescue (check2 N m pt) _ = _; rw [h6]; rfl
    · refine ⟨none, ?_, fun _ => ⟨p, q, h1, h2, h3, h5⟩⟩
      show rescue _ (.ok none) = _
      rw [attempt_infeasible.2 h5]; rfl

/-- C70 does not hold in full: for every model without substitutions, if the first program can be solved, `debug` raises `UnboundLocalError` and the solution is
lost. -/
theorem C70_nosubs_fails {S : Solver V ℝ D} {E : Env V ℝ D} {N : Names V} {m : Mdl V ℝ D} (hs : m.hasSubs = false) :
    ∃ p, prog1 E N m = .ok p ∧ ∀ pt, S.Finds p pt → debug S E N m = .error (.err .unboundLocal) := by
  obtain ⟨bs, h1, _⟩ := bounds_ok (E := E) m.free
  have h2 : prog1 E N m = .ok ⟨m.cost, m.flat ++ bs.flatten, []⟩ := by
    unfold prog1
    rw [h1]
    show (if m.hasSubs then _ else _) = _
    rw [hs]; rfl
  refine ⟨_, h2, fun pt hpt => ?_⟩
  unfold debug
  rw [h2]
  show rescue (S.attempt _ >>= _) _ = _
  rw [attempt_ok.2 hpt]
  show rescue (check1 N m pt) _ = _
  unfold check1
  rw [hs]; rfl

/-- C70 does not hold in full: for every model all of whose constants are zero `debug` raises `ValueError`, whatever its constraints. -/
theorem C70_zero_fails {S : Solver V ℝ D} {E : Env V ℝ D} {N : Names V} {m : Mdl V ℝ D} (hs : m.hasSubs = true) (hz : ∀ c ∈ m.consts, c.2 = 0) :
    debug S E N m = .error (.err .valueError) := by
  obtain ⟨bs, h1, _⟩ := bounds_ok (E := E) m.free
  have h0 : m.relaxable = [] := by
    unfold Mdl.relaxable
    rw [List.filter_eq_nil_iff]
    intro c hc
    simpa using hz c hc
  have h2 : prog1 E N m = .error .valueError := by
    unfold prog1
    rw [h1]
    show (if m.hasSubs then _ else _) = _
    rw [if_pos hs, h0]; rfl
  unfold debug
  rw [h2]; rfl

namespace Debugs

/-- No units. -/
noncomputable def dbgEnv : Env ℕ ℝ ℝ := ⟨1 / 1000, fun _ => none, fun _ _ => [], id⟩

/-- Names of new variables: numbers from 10 on. -/
def dbgNames : Names ℕ := ⟨fun v => 3 * v + 10, fun v => 3 * v + 11, fun i => 3 * i + 12⟩

/-- `x*y <= 1`. -/
noncomputable def dbgCon : Con ℕ ℝ ℝ := ⟨.posy, ⟨⟨[(⟨[(1, 1), (2, 1)]⟩, 1)], none⟩, .monomial⟩, .le, ⟨⟨[(HV.empty, 1)], none⟩, .monomial⟩,
  [⟨⟨[(⟨[(1, 1), (2, 1)]⟩, 1)], none⟩, .monomial⟩]⟩

/-- A model with cost `y`, constant `x = 2` and free variable `y`. -/
noncomputable def dbgModel (top : List (Elem ℕ ℝ ℝ)) : Mdl ℕ ℝ ℝ := ⟨top, ⟨⟨[(⟨[(2, 1)]⟩, 1)], none⟩, .monomial⟩, true, [(1, 2)], [2]⟩

theorem dbg_good (e : HV ℕ ℝ) : (PyVal.nom (⟨⟨[(e, 1)], none⟩, .monomial⟩ : Nomial ℕ ℝ ℝ)).Good ∧
    (⟨⟨[(e, 1)], none⟩, .monomial⟩ : Nomial ℕ ℝ ℝ).AllPos :=
  ⟨good_mkSig (by simp [UnitOK, unitScale]) (mkSig_mono (e := e) (u := (none : Option (UnitQ ℝ ℝ))) one_pos), by
    intro t ht; simp at ht; subst ht; exact one_pos⟩

theorem dbg_vks {n : ℕ} (h : 2 < n) : n ∉ dbgCon.left.hmap.vks ∧ n ∉ dbgCon.right.hmap.vks ∧
    n ∉ (dbgModel []).cost.hmap.vks := by
  refine ⟨?_, ?_, ?_⟩ <;> rw [mem_vks_items] <;> simp [dbgCon, dbgModel, HV.empty] <;> omega

theorem dbg_fresh {top : List (Elem ℕ ℝ ℝ)} (ht : ∀ c ∈ (dbgModel top).flat, c = dbgCon) : Fresh dbgEnv dbgNames (dbgModel top) where
  vr _ := rfl
  vn _ := rfl
  vc _ := rfl
  uok _ := by simp [dbgEnv, UnitOK, unitScale]
  ncinj v w h := by simp [dbgNames] at h; omega
  rn v w := by simp [dbgNames]; omega
  constR c hc w := by simp [dbgModel] at hc; subst hc; simp [dbgNames]
  constN c hc w := by simp [dbgModel] at hc; subst hc; simp [dbgNames]
  freeR v hv w := by simp [dbgModel] at hv; subst hv; simp [dbgNames]
  freeN v hv w := by simp [dbgModel] at hv; subst hv; simp [dbgNames]
  conR c hc w := by rw [ht c hc]; have := dbg_vks (n := dbgNames.rv w) (by simp [dbgNames]); exact ⟨this.1, this.2.1⟩
  conN c hc w := by rw [ht c hc]; have := dbg_vks (n := dbgNames.nc w) (by simp [dbgNames]); exact ⟨this.1, this.2.1⟩
  cost w := ⟨(dbg_vks (n := dbgNames.rv w) (by simp [dbgNames])).2.2, (dbg_vks (n := dbgNames.nc w) (by simp [dbgNames])).2.2⟩

theorem dbg_usual {top : List (Elem ℕ ℝ ℝ)} (ht : ∀ c ∈ (dbgModel top).flat, c = dbgCon) : Usual (dbgModel top) where
  cost := dbg_good _
  pos c hc := by simp [dbgModel] at hc; subst hc; norm_num
  subs := ⟨rfl, by simp [dbgModel]⟩
  sides c hc := by rw [ht c hc]; exact ⟨(dbg_good _).1, (dbg_good _).1⟩

theorem dbg_posy : PosyCon dbgCon ∧ ∀ i, Con.Fine dbgCon (dbgNames.cs i) := by
  refine ⟨⟨?_, ?_, by simp [dbgCon], by simp [dbgCon], (dbg_good _).2, (dbg_good _).2, ⟨fun _ => rfl, fun _ => rfl⟩, ⟨1, rfl⟩⟩, fun i =>
    ⟨(dbg_good _).1, (dbg_good _).1, (dbg_vks (by simp [dbgNames])).1, (dbg_vks (by simp [dbgNames])).2.1⟩⟩
  · constructor
    · intro t ht; simp [dbgCon] at ht; subst ht; simp [ExpCanonical]
    · simp [dbgCon]
  · constructor
    · intro t ht; simp [dbgCon] at ht; subst ht; simp [ExpCanonical, HV.empty]
    · simp [dbgCon]

theorem dbg_faithful : dbgCon.Faithful := by
  intro pt _
  simp [dbgCon, Con.Holds, physVal, termsVal, monVal, unitScale, HV.empty]

end Debugs

/-- The hypotheses of the theorems hold for `x*y <= 1` with `x = 2`. -/
example {S : Solver ℕ ℝ ℝ} (hS : S.Ends) : ∃ o, debug S dbgEnv dbgNames (dbgModel [.one dbgCon]) = .ok o :=
  have ht : ∀ c ∈ (dbgModel [.one dbgCon]).flat, c = dbgCon := by simp [dbgModel, Mdl.flat, Elem.cons]
  (C70_returns_partial hS (by norm_num [dbgEnv]) (dbg_fresh ht) (dbg_usual ht) (fun c hc => by rw [ht c hc]; exact dbg_faithful)
    (fun c hc => by rw [ht c hc]; exact dbg_posy) (by simp [dbgModel]) (by simp [dbgModel])).imp fun _ h => h.1

/-- The model with `x*y <= 1` and `x = 2` has a feasible point. -/
example : (dbgModel [.one dbgCon]).Feasible (fun v => if v = 1 then 2 else 1 / 2) := by
  refine ⟨fun v => by dsimp only; split <;> norm_num, by simp [dbgModel], ?_, by simp [dbgModel]; norm_num⟩
  simp [dbgModel, Mdl.flat, Elem.cons, dbgCon, Con.Holds, physVal, termsVal, monVal, unitScale, HV.empty]

open Classical in
/-- There are exact ways of solving. -/
example : ∃ S : Solver ℕ ℝ ℝ, S.Exact ∧ ∀ p, (∃ pt, p.Meets pt ∧ ∀ pt', p.Meets pt' → physVal pt p.cost.hmap ≤ physVal pt' p.cost.hmap) → ∃ pt, S.Finds p pt := by
  let f : Prog ℕ ℝ ℝ → Except Fail (ℕ → ℝ) := fun p =>
    if h : ∃ pt, p.Meets pt ∧ ∀ pt', p.Meets pt' → physVal pt p.cost.hmap ≤ physVal pt' p.cost.hmap then .ok h.choose
    else if ∃ pt, p.Meets pt then .error (.err .valueError) else .error .infeasible
  have hf : ∀ p, (⟨f, f⟩ : Solver ℕ ℝ ℝ).attempt p = f p := by
    intro p; unfold Solver.attempt; dsimp only; split <;> simp_all
  have hok : ∀ p pt, f p = .ok pt → p.Meets pt ∧ ∀ pt', p.Meets pt' → physVal pt p.cost.hmap ≤ physVal pt' p.cost.hmap := by
    intro p pt h
    simp only [f] at h
    split at h
    · rename_i h1; cases h; exact h1.choose_spec
    · split at h <;> cases h
  refine ⟨⟨f, f⟩, ⟨fun p pt h => ?_, fun p pt pt' h h' => ?_, fun p h => ?_⟩, fun p h => ?_⟩
  · rw [← attempt_ok, hf] at h; exact (hok p pt h).1
  · rw [← attempt_ok, hf] at h; exact (hok p pt h).2 pt' h'
  · rw [← attempt_infeasible, hf] at h
    simp only [f] at h
    split at h
    · cases h
    · split at h
      · cases h
      · assumption
  · refine ⟨h.choose, ?_⟩
    rw [← attempt_ok, hf]
    simp only [f]
    rw [dif_pos h]

/-- C70 does not hold in full: if the first program is infeasible, a model with one submodel of two constraints makes `debug` raise `IndexError`. A model with one
submodel of one constraint makes it raise `AttributeError` if the constraint has to be relaxed. -/
theorem C70_nested_fails :
    (∃ p, prog1 dbgEnv dbgNames (dbgModel [.set [dbgCon, dbgCon]]) = .ok p ∧ ∀ S : Solver ℕ ℝ ℝ, S.Refuses p →
      debug S dbgEnv dbgNames (dbgModel [.set [dbgCon, dbgCon]]) = .error (.err .indexError)) ∧
    ∃ p q, prog1 dbgEnv dbgNames (dbgModel [.set [dbgCon]]) = .ok p ∧ prog2 dbgEnv dbgNames (dbgModel [.set [dbgCon]]) = .ok q ∧
      ∀ (S : Solver ℕ ℝ ℝ) pt, S.Refuses p → S.Finds q pt → 101 / 100 < pt (dbgNames.cs 0) →
        debug S dbgEnv dbgNames (dbgModel [.set [dbgCon]]) = .error (.err .attributeError) := by
  constructor
  · have ht : ∀ c ∈ (dbgModel [.set [dbgCon, dbgCon]]).flat, c = dbgCon := by simp [dbgModel, Mdl.flat, Elem.cons]
    obtain ⟨hrel, _⟩ := consts_relaxable (dbg_usual ht).pos
    obtain ⟨p, h1, _⟩ := prog1_ok (dbg_fresh ht) rfl (by rw [hrel]; simp [dbgModel]) (dbg_usual ht).cost.1 (dbg_usual ht).cost.2
    refine ⟨p, h1, fun S hS => ?_⟩
    rw [← attempt_infeasible] at hS
    obtain ⟨cs, h2, _⟩ := C32_solver (E := dbgEnv) (by norm_num [dbgEnv]) (C := dbgNames.cs 0) rfl (dbg_posy.2 0) dbg_posy.1
    have h3 : prog2 dbgEnv dbgNames (dbgModel [.set [dbgCon, dbgCon]]) = .error .indexError := by
      show (relaxedAll dbgEnv false [dbgNames.cs 0] [dbgCon, dbgCon] >>= _) = _
      unfold relaxedAll relaxedEach
      rw [h2]; rfl
    unfold debug
    rw [h1]
    show rescue (S.attempt p >>= _) _ = _
    rw [hS]
    show second _ _ _ _ = _
    unfold second
    rw [h3]; rfl
  · have ht : ∀ c ∈ (dbgModel [.set [dbgCon]]).flat, c = dbgCon := by simp [dbgModel, Mdl.flat, Elem.cons]
    obtain ⟨p, q, h1, h2, _⟩ := C70_programs (by norm_num [dbgEnv]) (dbg_fresh ht) (dbg_usual ht) (fun c hc => by rw [ht c hc]; exact dbg_faithful)
      (fun c hc => by rw [ht c hc]; exact dbg_posy) (by simp [dbgModel, Mdl.flat, Elem.cons]) (by simp [dbgModel])
    refine ⟨p, q, h1, h2, fun S pt hp hq hr => ?_⟩
    rw [← attempt_infeasible] at hp
    rw [← attempt_ok] at hq
    unfold debug
    rw [h1]
    show rescue (S.attempt p >>= _) _ = _
    rw [hp]
    show second _ _ _ _ = _
    unfold second
    rw [h2]
    show rescue (S.attempt q >>= _) _ = _
    rw [hq]
    show rescue (check2 _ _ pt) _ = _
    unfold check2
    have h3 : getRelaxed (((dbgModel [.set [dbgCon]]).relaxvars dbgNames).map pt) (List.range (dbgModel [.set [dbgCon]]).flat.length) =
        .ok [(pt (dbgNames.cs 0), 0)] := by
      show getRelaxed [pt (dbgNames.cs 0)] [0] = _
      simp [getRelaxed, sortDown, relaxedPrefix, not_le.2 hr]
    rw [h3]; rfl

end Verif
