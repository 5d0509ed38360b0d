import Verif.Lemmas.Every
import Verif.Spec.Sequential
import Verif.Props.Inequality
import Verif.Props.Pipeline
import Verif.Lemmas.Positive
import Verif.Props.SGP
import Verif.Props.Guess
import Verif.Props.SigEq

/-! Lemmas about sequential geometric programs as a whole. -/

set_option linter.unusedSectionVars false

namespace Verif
open PyDict GP Pipeline
namespace SeqGP
variable {V D : Type} [DecidableEq V] [AddCommGroup D] [DecidableEq D]

theorem sub_absent {v : V} {a b : HV V ℝ} (ha : v ∉ a.items.map (·.1)) (hb : v ∉ b.items.map (·.1)) : v ∉ (a.sub b).items.map (·.1) := by
  intro h
  obtain ⟨p, hp, he⟩ := List.mem_map.1 h
  have := dictAdd_keys (P := fun k => k ≠ v) (a := a.items) (b := dictScale b.items (-1))
    (by rintro q hq rfl; exact ha (List.mem_map.2 ⟨q, hq, rfl⟩))
    (by
      intro q hq
      obtain ⟨r, hr, rfl⟩ := List.mem_map.1 hq
      rintro rfl
      exact hb (List.mem_map.2 ⟨r, hr, rfl⟩)) p hp
  exact this he

theorem rename_absent {v : V} {m : HV V ℝ} {mc : ℝ} (hm : v ∉ m.items.map (·.1)) : ∀ (l : List (HV V ℝ)) (ts ts' : PyDict (HV V ℝ) ℝ),
    (∀ e ∈ l, v ∉ e.items.map (·.1)) → Absent v ts → l.foldlM (renameStep m mc) ts = .ok ts' → Absent v ts'
  | [], ts, ts', _, ha, h => by cases h; exact ha
  | e :: l, ts, ts', hl, ha, h => by
    rw [List.foldlM_cons] at h
    obtain ⟨t1, h1, h2⟩ := except_bind_ok h
    refine rename_absent hm l t1 ts' (fun e' he => hl e' (by simp [he])) ?_ h2
    unfold renameStep at h1
    split at h1
    · cases h1
    · split at h1
      · cases h1
      · cases h1
        have hdel : Absent v (ts.del e) := del_keys (P := fun e : HV V ℝ => v ∉ e.items.map (fun x : V × ℝ => x.1)) ha e
        exact set_keys (P := fun e : HV V ℝ => v ∉ e.items.map (fun x : V × ℝ => x.1)) hdel (sub_absent (hl e (by simp)) hm) _

theorem simplify_absent {v : V} {tol : ℝ} {ts ts' : PyDict (HV V ℝ) ℝ} (ha : Absent v ts) (h : simplifyPosyIneq tol ts = .ok (some ts')) : Absent v ts' := by
  unfold simplifyPosyIneq at h
  split at h
  · cases h; exact ha
  · split at h
    · cases h
    · split at h
      · cases h
      · split at h
        · cases h
        · cases h
          refine del_keys (P := fun e : HV V ℝ => v ∉ e.items.map (·.1)) ?_ _
          intro p hp
          obtain ⟨q, hq, rfl⟩ := List.mem_map.1 hp
          exact ha q hq

theorem genUnsubbed_absent {v : V} {tol : ℝ} {p m : NMap V ℝ D} {forms : List (Nomial V ℝ D)} (hp : Absent v p.terms) (hm : Absent v m.terms)
    (h : genUnsubbed false tol p m = .ok forms) : ∀ f ∈ forms, Absent v f.hmap.terms := by
  unfold genUnsubbed at h
  split at h
  · rename_i mexp mc hmt
    obtain ⟨r, -, h1⟩ := except_bind_ok h
    obtain ⟨ts, h2, h3⟩ := except_bind_ok h1
    obtain ⟨s, h4, h5⟩ := except_bind_ok h3
    have hts : Absent v ts := by
      refine rename_absent (hm (mexp, mc) (by rw [hmt]; simp)) _ _ _ ?_ hp h2
      intro e he
      obtain ⟨t, ht, rfl⟩ := List.mem_map.1 he
      exact hp t ht
    unfold wrapForm at h5
    split at h5
    · cases h5; simp
    · split at h5
      · cases h5; simp
      · rename_i ts' _
        cases hk : mkSig (D := D) false true ⟨ts', none⟩ with
        | error e => rw [hk] at h5; cases h5
        | ok n =>
          rw [hk] at h5
          cases h5
          intro f hf
          rw [List.mem_singleton] at hf
          subst hf
          rw [mkSig_ok hk]
          exact simplify_absent hts h4
  · cases h

theorem lowerBound_absent {v : V} {p m : Nomial V ℝ D} {vunits : V → Option (UnitQ D ℝ)} {x0 : PyDict V ℝ} {ord : Orders V ℝ} {vs : List V}
    (hp : Absent v p.hmap.terms) (hvs : v ∉ vs) (h : p.monoLowerBound vunits x0 ord vs = .ok m) : Absent v m.hmap.terms := by
  unfold Nomial.monoLowerBound at h
  split at h
  · cases h; exact hp
  · obtain ⟨mm, h1, h2⟩ := except_bind_ok h
    rw [mkSig_ok h2]
    unfold monoApprox at h1
    split at h1
    · cases h1
    · split at h1
      · split at h1
        · rename_i c0 _ _
          obtain ⟨st, hst, h3⟩ := except_bind_ok h1
          cases h3
          have hinv : ∀ (vs : List V) (st st' : ℝ × PyDict V ℝ), v ∉ vs → (∀ q ∈ st.2, q.1 ≠ v) →
              vs.foldlM (monoApproxStep p.hmap vunits x0 ord c0) st = .ok st' → ∀ q ∈ st'.2, q.1 ≠ v := by
            intro vs
            induction vs with
            | nil => intro st st' _ h h1; cases h1; exact h
            | cons w vs ih =>
              intro st st' hw h h1
              rw [List.foldlM_cons] at h1
              obtain ⟨s1, h2, h3⟩ := except_bind_ok h1
              refine ih s1 st' (fun hm => hw (by simp [hm])) ?_ h3
              unfold monoApproxStep at h2
              split at h2
              · cases h2
              · split at h2
                · cases h2
                · split at h2
                  · split at h2
                    · cases h2
                    · simp only at h2
                      split at h2
                      · cases h2
                        simp only
                        split
                        · refine set_keys (P := fun k => k ≠ v) h ?_ _
                          rintro rfl
                          exact hw (by simp)
                        · exact h
                      · cases h2
                  · cases h2
          intro t ht
          simp only [List.mem_singleton] at ht
          subst ht
          intro hm
          obtain ⟨q, hq, he⟩ := List.mem_map.1 hm
          exact hinv vs _ st hvs (by simp) hst q hq he
        · cases h1
      · cases h1

/-- What C17 asks of a signomial inequality approximated at a point, besides positivity of the point. Nothing is asked of equalities. -/
def SigOK (vunits : V → Option (UnitQ D ℝ)) (ord : Orders V ℝ) (setord : List V → List V) (x0 : PyDict V ℝ) (sig : Sg V D) : Prop :=
  sig.equality = false → ∀ posy negy m e c, sig.toNomial.posyNegy false = .ok (some posy, some negy) →
    negy.monoLowerBound vunits (fillX0 negy.hmap.vks x0) ord (setord negy.hmap.vks) = .ok m → m.hmap.terms = [(e, c)] → NoClash e posy.hmap.terms

/-- The step of `asHmapslt1` without substitutions. -/
noncomputable def noSubStep (tol : ℝ) (ord : Orders V ℝ) (acc : Except Err (List (PyDict (HV V ℝ) ℝ)) × Memo ℝ) (posy : PyDict (HV V ℝ) ℝ) :
    Except Err (List (PyDict (HV V ℝ) ℝ)) × Memo ℝ :=
  match acc.1 with
  | .error e => (.error e, acc.2)
  | .ok out => ((formStep tol posy [] (ord posy []) acc.2).1.map (fun new => out ++ new), (formStep tol posy [] (ord posy []) acc.2).2)

theorem asHmapslt1_noSub (tol : ℝ) (ord : Orders V ℝ) (us : List (PyDict (HV V ℝ) ℝ)) (m : Memo ℝ) :
    asHmapslt1 tol us [] ord m = us.foldl (noSubStep tol ord) (.ok [], m) := by
  unfold asHmapslt1
  congr 1
  funext acc posy
  unfold noSubStep
  cases acc.1 <;> rfl

/-- The forms of a constraint without substitutions. -/
theorem noSub_forms {tol : ℝ} (htol : 0 ≤ tol) {ord : Orders V ℝ} (ho : ord.Valid) : ∀ (us acc forms : List (PyDict (HV V ℝ) ℝ)) (m : Memo ℝ),
    (∀ u ∈ us, TermsCanonical u ∧ u ≠ [] ∧ ∀ t ∈ u, 0 < t.2) →
    (us.foldl (noSubStep tol ord) (.ok acc, m)).1 = .ok forms →
    ∃ fs, forms = acc ++ fs ∧
      (∀ g ∈ fs, TermsCanonical g ∧ g ≠ [] ∧ (∀ t ∈ g, 0 < t.2) ∧ ∃ u ∈ us, ∀ v, Absent v u → Absent v g) ∧
      ∀ pt : V → ℝ, ∀ s, 1 + tol ≤ s → (∀ g ∈ fs, termsVal pt g ≤ s) → ∀ u ∈ us, termsVal pt u ≤ s
  | [], acc, forms, m, _, h => by
    cases h
    exact ⟨[], by simp, by simp, by simp⟩
  | u :: us, acc, forms, m, hu, h => by
    rw [List.foldl_cons] at h
    cases hfs : formStep tol u [] (ord u []) m with
    | mk r1 m1 =>
      simp only [noSubStep, hfs] at h
      cases r1 with
      | error e =>
        exfalso
        simp only [Except.map] at h
        have herr : ∀ (l : List (PyDict (HV V ℝ) ℝ)), (l.foldl (noSubStep tol ord) (.error e, m1)).1 = .error e := by
          intro l
          induction l with
          | nil => rfl
          | cons a l ih => rw [List.foldl_cons]; exact ih
        rw [herr] at h
        cases h
      | ok new =>
        simp only [Except.map] at h
        obtain ⟨fs, rfl, i1, i2⟩ := noSub_forms htol ho us (acc ++ new) forms m1 (fun u' hu' => hu u' (by simp [hu'])) h
        obtain ⟨u1, u2, u3⟩ := hu u (by simp)
        have hov : ∀ pt : V → ℝ, override pt ([] : PyDict V ℝ) = pt := fun pt => rfl
        have hone : (∀ g ∈ new, TermsCanonical g ∧ g ≠ [] ∧ (∀ t ∈ g, 0 < t.2) ∧ ∀ v, Absent v u → Absent v g) ∧
            ∀ pt : V → ℝ, ∀ s, 1 + tol ≤ s → (∀ g ∈ new, termsVal pt g ≤ s) → termsVal pt u ≤ s := by
          rcases C13_value htol u1 u2 u3 (by simp [PyDict.get?]) (ho _ _) hfs with ⟨rfl, c, hc1, hc2⟩ | ⟨g, rfl, g1, g2, g3, -, c0, g4, g5, g6⟩
          · refine ⟨by simp, fun pt s hs _ => ?_⟩
            have := hc2 pt
            rw [hov] at this
            rw [this]
            exact hc1.trans hs
          · constructor
            · intro g' hg'
              rw [List.mem_singleton] at hg'
              subst hg'
              refine ⟨g3, g1, g2, fun v hv => ?_⟩
              unfold formStep subState at hfs
              simp only [List.isEmpty_nil, if_true] at hfs
              split at hfs
              · cases hfs
              · have hck := congrArg Prod.fst hfs
                simp only at hck
                cases hsm : simplifyPosyIneq tol u with
                | error e => rw [hsm] at hck; cases hck
                | ok o =>
                  rw [hsm] at hck
                  cases o with
                  | none => cases hck
                  | some ts =>
                    simp only [checkForm] at hck
                    split at hck
                    · cases hck
                    · cases hck
                      exact simplify_absent hv hsm
            · intro pt s hs hle
              have h1 := g6 pt
              rw [hov] at h1
              rw [h1]
              have h2 := hle g (by simp)
              nlinarith
        refine ⟨new ++ fs, by simp, ?_, ?_⟩
        · intro g hg
          rcases List.mem_append.1 hg with hg | hg
          · obtain ⟨a, b, c, d⟩ := hone.1 g hg
            exact ⟨a, b, c, u, by simp, d⟩
          · obtain ⟨a, b, c, u', hu', d⟩ := i1 g hg
            exact ⟨a, b, c, u', by simp [hu'], d⟩
        · intro pt s hs hle u' hu'
          rcases List.mem_cons.1 hu' with rfl | hu'
          · exact hone.2 pt s hs (fun g hg => hle g (by simp [hg]))
          · exact i2 pt s hs (fun g hg => hle g (by simp [hg])) u' hu'

theorem meq_absent {v : V} {tol : ℝ} {l r : NMap V ℝ D} {forms : List (Nomial V ℝ D)} (hl : Absent v l.terms) (hr : Absent v r.terms)
    (h : meqConstr false tol l r = .ok forms) : ∀ f ∈ forms, Absent v f.hmap.terms := by
  have h := meqConstr_ok h
  unfold meqUnsubbed at h
  obtain ⟨a, ha, h1⟩ := except_bind_ok h
  obtain ⟨b, hb, h2⟩ := except_bind_ok h1
  cases h2
  intro f hf
  rcases List.mem_append.1 hf with hf | hf
  · exact genUnsubbed_absent hl hr ha f hf
  · exact genUnsubbed_absent hr hl hb f hf

theorem lowerBound_absent' {v : V} {p m : Nomial V ℝ D} {vunits : V → Option (UnitQ D ℝ)} {x0 : PyDict V ℝ} {ord : Orders V ℝ}
    {setord : List V → List V} (hset : ∀ l, (setord l).Perm l) (hp : Absent v p.hmap.terms)
    (h : p.monoLowerBound vunits x0 ord (setord p.hmap.vks) = .ok m) : Absent v m.hmap.terms := by
  refine lowerBound_absent hp ?_ h
  intro hmem
  have := (hset p.hmap.vks).mem_iff.1 hmem
  unfold NMap.vks at this
  rw [List.mem_dedup, List.mem_flatMap] at this
  obtain ⟨t, ht, hv'⟩ := this
  exact hp t ht hv'

theorem parts_absent {v : V} {sig posy negy : Nomial V ℝ D} (hc : WF sig.hmap.terms) (hv : Absent v sig.hmap.terms)
    (hpn : sig.posyNegy false = .ok (some posy, some negy)) : Absent v posy.hmap.terms ∧ Absent v negy.hmap.terms := by
  obtain ⟨p1, -, n1, -⟩ := posyNegy_some hc hpn
  constructor
  · rw [p1]
    intro t ht
    exact hv t (List.mem_filter.1 ht).1
  · rw [n1]
    intro t ht
    obtain ⟨u, hu, rfl⟩ := List.mem_map.1 ht
    exact hv u (List.mem_filter.1 hu).1

/-- One approximation. -/
theorem approx_spec [Module ℝ D] {tol : ℝ} (htol : 0 ≤ tol) {sig : Sg V D} {vunits : V → Option (UnitQ D ℝ)} {x0 : PyDict V ℝ}
    {ord : Orders V ℝ} {setord : List V → List V} {forms : List (PyDict (HV V ℝ) ℝ)}
    (hc : TermsTidy sig.hmap.terms) (hu : UnitOK sig.hmap.units) (ho : ord.Valid) (hset : ∀ l, (setord l).Perm l)
    (hx0 : ∀ v c, x0.get? v = some c → 0 < c) (hsig : SigOK vunits ord setord x0 sig)
    (h : approxOf tol vunits ord setord x0 sig = .ok forms) :
    (∀ g ∈ forms, TermsCanonical g ∧ g ≠ [] ∧ (∀ t ∈ g, 0 < t.2) ∧ ∀ v, Absent v sig.hmap.terms → Absent v g) ∧
    ∀ pt, (∀ v, 0 < pt v) → ∀ s, 1 + tol ≤ s → (∀ g ∈ forms, termsVal pt g ≤ s) → sig.Holds (fun v => (x0.get? v).getD 1) s pt := by
  unfold approxOf at h
  split at h
  · rename_i he
    unfold eqApprox at h
    obtain ⟨us, hus, h1⟩ := except_bind_ok h
    have habs : ∀ v, Absent v sig.hmap.terms → ∀ f ∈ us, Absent v f.hmap.terms := by
      intro v hv
      unfold eqGpconstr at hus
      obtain ⟨⟨op, on⟩, hpn, h'⟩ := except_bind_ok hus
      match op, on with
      | _, none => simp at h'
      | none, some _ => simp at h'
      | some posy, some negy =>
        obtain ⟨l, hl, h2⟩ := except_bind_ok h'
        obtain ⟨r, hr, h3⟩ := except_bind_ok h2
        obtain ⟨hp, hn⟩ := parts_absent hc.1 hv hpn
        exact meq_absent (lowerBound_absent' hset hp hl) (lowerBound_absent' hset hn hr) h3
    obtain ⟨lo, ro, hk⟩ := eqGpconstr_core hc hu ho hset hx0 hus
    have hok : ∀ u ∈ us.map (·.hmap.terms), TermsCanonical u ∧ u ≠ [] ∧ ∀ t ∈ u, 0 < t.2 := by
      have key : ∀ e : HV V ℝ, ∀ c : ℝ, 0 < c → ExpCanonical e.items → TermsCanonical [(e, c)] ∧ [(e, c)] ≠ [] ∧ ∀ t ∈ [(e, c)], 0 < t.2 := by
        intro e c hc he
        exact ⟨⟨by intro t ht; simp at ht; rw [ht]; exact ⟨he, hc.ne'⟩, by simp⟩, by simp, by simpa using hc⟩
      intro u hu
      obtain ⟨f, hf, rfl⟩ := List.mem_map.1 hu
      rcases hk.forms with ⟨rfl, -⟩ | ⟨a, b, rfl, ⟨ea, ca, ha, ha1, ha2⟩, ⟨eb, cb, hb, hb1, hb2⟩, -⟩
      · simp at hf
      · simp only [List.mem_cons, List.not_mem_nil, or_false] at hf
        rcases hf with rfl | rfl
        · simp only [ha]; exact key ea ca ha1 ha2
        · simp only [hb]; exact key eb cb hb1 hb2
    obtain ⟨fs, hfs, f1, f2⟩ := noSub_forms htol ho _ [] forms {} hok (asHmapslt1_noSub tol ord _ _ ▸ h1)
    rw [List.nil_append] at hfs
    subst hfs
    refine ⟨fun g hg => ?_, fun pt hpt s hs hle => ⟨fun hf => absurd (hf.symm.trans he) (by simp), fun _ B hB0 hB => ?_⟩⟩
    · obtain ⟨a, b, c, u, hu', d⟩ := f1 g hg
      obtain ⟨f, hf, rfl⟩ := List.mem_map.1 hu'
      exact ⟨a, b, c, fun v hv => d v (habs v hv f hf)⟩
    · exact C87_error_partial hc hu ho hset hx0 hus hpt (fun f hf => f2 pt s hs hle _ (List.mem_map.2 ⟨f, hf, rfl⟩)) (fun _ => hs) hB0 hB
  · rename_i he
    have he : sig.equality = false := by simpa using he
    unfold Guess.approx at h
    obtain ⟨us, hus, h1⟩ := except_bind_ok h
    have habs : ∀ v, Absent v sig.hmap.terms → ∀ f ∈ us, Absent v f.hmap.terms := by
      intro v hv
      unfold asGpconstr at hus
      obtain ⟨⟨op, on⟩, hpn, h'⟩ := except_bind_ok hus
      match op, on with
      | _, none => simp at h'
      | none, some _ => simp at h'
      | some posy, some negy =>
        obtain ⟨m, hm, h2⟩ := except_bind_ok h'
        obtain ⟨hp, hn⟩ := parts_absent hc.1 hv hpn
        exact genUnsubbed_absent hp (lowerBound_absent' hset hn hm) h2
    have hcase := C17_slack_partial htol hc hu ho hset hx0 (hsig he) hus
    have hok : ∀ u ∈ us.map (·.hmap.terms), TermsCanonical u ∧ u ≠ [] ∧ ∀ t ∈ u, 0 < t.2 := by
      intro u hu
      obtain ⟨f, hf, rfl⟩ := List.mem_map.1 hu
      rcases hcase with ⟨rfl, -⟩ | ⟨f', rfl, h2, h3, h4, -⟩
      · simp at hf
      · rw [List.mem_singleton] at hf
        subst hf
        exact ⟨h3, h4, h2⟩
    obtain ⟨fs, hfs, f1, f2⟩ := noSub_forms htol ho _ [] forms {} hok (asHmapslt1_noSub tol ord _ _ ▸ h1)
    rw [List.nil_append] at hfs
    subst hfs
    refine ⟨fun g hg => ?_, fun pt hpt s hs hle => ⟨fun _ => ?_, fun hf => absurd (hf.symm.trans he) (by simp)⟩⟩
    · obtain ⟨a, b, c, u, hu', d⟩ := f1 g hg
      obtain ⟨f, hf, rfl⟩ := List.mem_map.1 hu'
      exact ⟨a, b, c, fun v hv => d v (habs v hv f hf)⟩
    · have h6 := f2 pt s hs hle
      rcases hcase with ⟨rfl, h2⟩ | ⟨f', rfl, -, -, -, h5, -⟩
      · refine (h2 pt hpt).trans (mul_le_mul_of_nonneg_right hs ?_)
        rw [neg_nonneg]
        unfold termsVal
        have hsum : ∀ l : List ℝ, (∀ x ∈ l, x ≤ 0) → l.sum ≤ 0 := by
          intro l
          induction l with
          | nil => simp
          | cons a l ih =>
            intro hl
            rw [List.sum_cons]
            linarith [hl a (by simp), ih (fun x hx => hl x (by simp [hx]))]
        refine hsum _ ?_
        intro x hx
        obtain ⟨t, ht, rfl⟩ := List.mem_map.1 hx
        have h2 : t.2 < 0 := by simpa using (List.mem_filter.1 ht).2
        exact (mul_neg_of_neg_of_pos h2 (monVal_pos hpt _)).le
      · exact h5 pt hpt s (by linarith) (h6 _ (by simp))

/-- The value of the slack, which is one without `use_pccp`. -/
noncomputable def slackVal (slack : Option V) (pt : V → ℝ) : ℝ :=
  match slack with
  | none => 1
  | some v => pt v

theorem slackVal_pos (slack : Option V) {pt : V → ℝ} (hpt : ∀ v, 0 < pt v) : 0 < slackVal slack pt := by
  cases slack with
  | none => exact one_pos
  | some v => exact hpt v

theorem slackPow_val (slack : Option V) (x : ℝ) (pt : V → ℝ) : termsVal pt (slackPow slack x) = slackVal slack pt ^ x := by
  cases slack with
  | none => simp [slackPow, slackVal, termsVal, monVal, HV.empty]
  | some v =>
    unfold slackPow
    simp only
    split
    · rename_i h; subst h; simp [slackVal, termsVal, monVal, HV.empty]
    · simp [slackVal, termsVal, monVal]

theorem slackPow_ok (slack : Option V) (x : ℝ) :
    ∃ e, slackPow slack x = [(e, 1)] ∧ ExpCanonical e.items ∧ ∀ pt : V → ℝ, monVal pt e.items = slackVal slack pt ^ x := by
  have key : ∀ e : HV V ℝ, slackPow slack x = [(e, 1)] → ∀ pt : V → ℝ, monVal pt e.items = slackVal slack pt ^ x := by
    intro e he pt
    rw [← slackPow_val, he]
    simp [termsVal]
  cases slack with
  | none => exact ⟨HV.empty, rfl, by simp [ExpCanonical, HV.empty], key _ rfl⟩
  | some v =>
    by_cases hx : x = 0
    · have : slackPow (some v) x = [(HV.empty, 1)] := by simp [slackPow, hx]
      exact ⟨HV.empty, this, by simp [ExpCanonical, HV.empty], key _ this⟩
    · have : slackPow (some v) x = [(⟨[(v, x)]⟩, 1)] := by simp [slackPow, hx]
      exact ⟨_, this, by simp [ExpCanonical, hx], key _ this⟩

theorem slackPow_canonical (slack : Option V) (x : ℝ) :
    TermsCanonical (slackPow slack x) ∧ slackPow slack x ≠ [] ∧ ∀ t ∈ slackPow slack x, 0 < t.2 := by
  obtain ⟨e, he, hc, -⟩ := slackPow_ok slack x
  rw [he]
  exact ⟨⟨by intro t ht; simp at ht; rw [ht]; exact ⟨hc, one_ne_zero⟩, by simp⟩, by simp, by simp⟩

/-- Terms without a variable do not depend on it. -/
theorem absent_val {v : V} {ts : PyDict (HV V ℝ) ℝ} (h : Absent v ts) {pt qt : V → ℝ} (hq : ∀ u, u ≠ v → pt u = qt u) : termsVal pt ts = termsVal qt ts := by
  refine termsVal_congr ?_
  intro t ht kx hkx
  refine hq _ ?_
  rintro rfl
  exact h t ht (List.mem_map.2 ⟨kx, hkx, rfl⟩)

theorem absent_monVal {v : V} {e : List (V × ℝ)} (h : v ∉ e.map (·.1)) {pt qt : V → ℝ} (hq : ∀ u, u ≠ v → pt u = qt u) : monVal pt e = monVal qt e := by
  have := absent_val (v := v) (ts := [(⟨e⟩, 1)]) (by intro t ht; simp at ht; subst ht; exact h) hq
  simpa [termsVal] using this

/-- Canonical exponents with the same values are the same. -/
theorem monVal_injective {e e' : PyDict V ℝ} (h : ExpCanonical e) (h' : ExpCanonical e')
    (heq : ∀ pt : V → ℝ, (∀ v, 0 < pt v) → monVal pt e = monVal pt e') : e.Perm e' := by
  refine chi_injective h h' ?_
  ext g
  have := heq (fun v => Real.exp (Multiplicative.toAdd g v)) (fun v => Real.exp_pos _)
  rw [monVal_eq_exp (fun v => Real.exp_pos _), monVal_eq_exp (fun v => Real.exp_pos _)] at this
  simp only [Real.log_exp] at this
  exact this

/-- The slack meets no term. -/
theorem slack_noClash {slack : Option V} {h : PyDict (HV V ℝ) ℝ} (hc : TermsCanonical h) (ha : ∀ v, slack = some v → Absent v h) {e : HV V ℝ}
    (he : slackPow slack 1 = [(e, 1)]) : NoClash e h := by
  have hev : ∀ pt : V → ℝ, monVal pt e.items = slackVal slack pt := by
    intro pt
    have := slackPow_val slack 1 pt
    rw [he, Real.rpow_one] at this
    simpa [termsVal] using this
  unfold NoClash
  refine hc.2.imp_of_mem ?_
  intro s t hs ht hne hall
  cases slack with
  | none =>
    refine hne (monVal_injective (hc.1 s hs).1 (hc.1 t ht).1 ?_)
    intro pt hpt
    rw [hall pt hpt, hev pt]
    simp [slackVal]
  | some v =>
    have h1 := hall (fun _ => 1) (fun _ => one_pos)
    have h2 := hall (fun u => if u = v then 2 else 1) (fun u => by split <;> norm_num)
    have hq : ∀ u, u ≠ v → (fun u => if u = v then (2 : ℝ) else 1) u = (fun _ => (1 : ℝ)) u := by
      intro u hu; simp [hu]
    rw [absent_monVal (ha v rfl s hs) hq, absent_monVal (ha v rfl t ht) hq, hev] at h2
    rw [hev] at h1
    simp only [slackVal, if_true, mul_one] at h1 h2
    have := monVal_pos (pt := fun _ : V => (1 : ℝ)) (fun _ => one_pos) t.1.items
    linarith

theorem approxCon_ok {slack : Option V} {h : PyDict (HV V ℝ) ℝ} (hc : TermsCanonical h) (hpos : ∀ t ∈ h, 0 < t.2)
    (ha : ∀ v, slack = some v → Absent v h) : ConOK (approxCon slack h : Con V D) := by
  obtain ⟨e, he, hec, -⟩ := slackPow_ok slack 1
  exact ⟨.inl rfl, hc, hpos, e, 1, he, hec, one_pos, by simp [UnitOK, unitScale], by simp [UnitOK, unitScale], slack_noClash hc ha he⟩

theorem approxCon_holds {slack : Option V} {h : PyDict (HV V ℝ) ℝ} {s : ℝ} {pt : V → ℝ} :
    (approxCon slack h : Con V D).Holds s pt ↔ termsVal pt h ≤ s * slackVal slack pt := by
  show physVal pt (⟨h, none⟩ : NMap V ℝ D) ≤ s * physVal pt (⟨slackPow slack 1, none⟩ : NMap V ℝ D) ↔ _
  simp only [physVal, unitScale, one_mul, slackPow_val, Real.rpow_one]

theorem slackCons_ok (slack : Option V) : ∀ c ∈ (slackCons slack : List (Con V D)), ConOK c := by
  intro c hc
  cases slack with
  | none => simp [slackCons] at hc
  | some v =>
    simp only [slackCons, List.mem_singleton] at hc
    subst hc
    obtain ⟨e, he, hec, -⟩ := slackPow_ok (some v) 1
    refine ⟨.inl rfl, ⟨?_, by simp⟩, by simp, e, 1, he, hec, one_pos, by simp [UnitOK, unitScale], by simp [UnitOK, unitScale], by simp [NoClash]⟩
    intro t ht
    simp only [List.mem_singleton] at ht
    subst ht
    exact ⟨by simp [ExpCanonical, HV.empty], one_ne_zero⟩

theorem slackCons_holds {slack : Option V} {s : ℝ} (hs : 1 ≤ s) {pt : V → ℝ} (h : ∀ c ∈ (slackCons slack : List (Con V D)), c.Holds s pt) :
    1 ≤ s * slackVal slack pt := by
  cases slack with
  | none => simpa [slackVal] using hs
  | some v =>
    have := h _ (List.mem_singleton.2 rfl)
    have h2 : physVal pt (⟨[(HV.empty, 1)], none⟩ : NMap V ℝ D) ≤ s * physVal pt (⟨slackPow (some v) 1, none⟩ : NMap V ℝ D) := this
    simp only [physVal, unitScale, one_mul, slackPow_val, Real.rpow_one] at h2
    simpa [termsVal, monVal, HV.empty] using h2

/-- An update replaces a form by one that says the same as the new approximation with slack. -/
theorem updateForm_spec {S : Setup V D} {T : ℝ} (hf : 0 ≤ S.feastol) (hT : S.feastol ≤ T) (hfix : ∀ v c, S.fixed.get? v = some c → 0 < c)
    (hord : S.ord.Valid) {nsp i : Nat} {h : PyDict (HV V ℝ) ℝ} (hc : TermsCanonical h) (hne : h ≠ []) (hpos : ∀ t ∈ h, 0 < t.2) {u : Nat × Hmap V ℝ}
    (hu : S.updateForm nsp h i = .ok u) :
    ∃ f, u = (i + 1, ⟨f, false⟩) ∧ i < nsp ∧ TermsCanonical f ∧ f ≠ [] ∧ (∀ t ∈ f, 0 < t.2) ∧
      ∀ pt : V → ℝ, (∀ v, 0 < pt v) → termsVal pt f ≤ 1 + T →
        termsVal (override pt S.fixed) h ≤ (1 + T) * slackVal S.slack (override pt S.fixed) := by
  unfold Setup.updateForm at hu
  split at hu
  · rename_i hi
    obtain ⟨fs, hfs, h1⟩ := except_bind_ok hu
    obtain ⟨s1, s2, s3⟩ := slackPow_canonical S.slack (-1)
    have hval : ∀ pt : V → ℝ, (∀ v, 0 < pt v) → termsVal pt (Nomial.mulTerms h (slackPow S.slack (-1))) = termsVal pt h * (slackVal S.slack pt)⁻¹ := by
      intro pt hpt
      rw [termsVal_mulTerms hpt, slackPow_val, Real.rpow_neg_one]
    have hmne : Nomial.mulTerms h (slackPow S.slack (-1)) ≠ [] := by
      intro hcon
      have := hval (fun _ => 1) (fun _ => one_pos)
      rw [hcon] at this
      have h2 := termsVal_pos (pt := fun _ : V => (1 : ℝ)) (fun _ => one_pos) hne hpos
      have h3 := slackVal_pos S.slack (pt := fun _ : V => (1 : ℝ)) (fun _ => one_pos)
      have h4 := mul_pos h2 (inv_pos.2 h3)
      rw [← this] at h4
      simp [termsVal] at h4
    unfold asHmapslt1 at hfs
    obtain ⟨new, hnew, h5, h6⟩ := forms_spec hf hT (fun v c hv => (hfix v c hv).le) hord _ (fun _ _ _ => rfl) (fun _ _ _ => rfl)
      [Nomial.mulTerms h (slackPow S.slack (-1))] [] {} fs
      (by intro p hp; rw [List.mem_singleton] at hp; subst hp; exact ⟨mulTerms_canonical hc s1, hmne, mulTerms_pos hpos s3⟩) hfs
    rw [List.nil_append] at hnew
    subst hnew
    split at h1
    · rename_i f
      cases h1
      obtain ⟨f1, f2, f3⟩ := h5 f (by simp)
      refine ⟨f, rfl, hi, f1, f2, f3, ?_⟩
      intro pt hpt hle
      have hop := override_pos hpt hfix
      have := (h6 pt).1 (by intro g hg; rw [List.mem_singleton] at hg; subst hg; exact hle) _ (List.mem_singleton.2 rfl)
      rw [hval _ hop] at this
      have hs := slackVal_pos S.slack hop
      rwa [← div_eq_mul_inv, div_le_iff₀ hs] at this
    · cases h1
  · cases hu

/-- With slack, an approximation is one form. -/
theorem approx_one {S : Setup V D} (hf : 0 ≤ S.feastol) (hfix : ∀ v c, S.fixed.get? v = some c → 0 < c)
    (hord : S.ord.Valid) {h : PyDict (HV V ℝ) ℝ} (hc : TermsCanonical h) (hne : h ≠ []) (hpos : ∀ t ∈ h, 0 < t.2)
    {v : V} (hv : S.slack = some v) (ha : Absent v h) (hvf : S.fixed.get? v = none) {hs : List (Hmap V ℝ)}
    (hh : (approxCon S.slack h : Con V D).hmaps S.feastol S.fixed S.ord = .ok hs) : hs ≠ [] := by
  rintro rfl
  have hok := approxCon_ok (D := D) hc hpos (slack := S.slack) (by intro w hw; rw [hv] at hw; cases hw; exact ha)
  obtain ⟨-, h2⟩ := hmaps_spec hf (le_refl S.feastol) hfix hord hok hh
  set q : V → ℝ := override (fun _ => 1) S.fixed with hq
  have hqpos : ∀ u, 0 < q u := override_pos (fun _ => one_pos) hfix
  have hp := termsVal_pos hqpos hne hpos
  set z : ℝ := termsVal q h / (2 * (1 + S.feastol)) with hz
  have hzpos : 0 < z := by rw [hz]; positivity
  have h3 := (h2 (fun u => if u = v then z else 1) (fun u => by split <;> [exact hzpos; exact one_pos])).1 (by simp)
  rw [approxCon_holds, hv] at h3
  have h4 : termsVal (override (fun u => if u = v then z else 1) S.fixed) h = termsVal q h := by
    refine absent_val ha ?_
    intro u hu
    rw [hq]
    unfold override
    simp only [hu, if_false]
  rw [h4] at h3
  have h5 : slackVal (some v) (override (fun u => if u = v then z else 1) S.fixed) = z := by
    simp [slackVal, override, hvf]
  rw [h5, hz] at h3
  have h6 : (1 + S.feastol) * (termsVal q h / (2 * (1 + S.feastol))) = termsVal q h / 2 := by
    field_simp
  rw [h6] at h3
  linarith

/-- A constraint that is a single inequality has at most one form, which is not part of an equality. -/
theorem approx_le_one {feastol : ℝ} (hf : 0 ≤ feastol) {fixed : PyDict V ℝ} (hfix : ∀ v c, fixed.get? v = some c → 0 < c) {ord : Orders V ℝ}
    (hord : ord.Valid) {slack : Option V} {h : PyDict (HV V ℝ) ℝ} (hc : TermsCanonical h) (hne : h ≠ []) (hpos : ∀ t ∈ h, 0 < t.2)
    (ha : ∀ v, slack = some v → Absent v h) {hs : List (Hmap V ℝ)}
    (hh : (approxCon slack h : Con V D).hmaps feastol fixed ord = .ok hs) : hs = [] ∨ ∃ f, hs = [⟨f, false⟩] := by
  obtain ⟨-, -, -, e, k, hm, he, hk, hpu, hmu, hcl⟩ := approxCon_ok (D := D) hc hpos ha
  unfold Con.hmaps at hh
  obtain ⟨u, hu, h1⟩ := except_bind_ok hh
  obtain ⟨forms, hforms, h2⟩ := except_bind_ok h1
  cases h2
  have hu' : genUnsubbed false feastol (⟨h, none⟩ : NMap V ℝ D) ⟨slackPow slack 1, none⟩ = .ok u := hu
  have hone : u = [] ∨ ∃ f, u = [f] ∧ TermsCanonical f.hmap.terms ∧ f.hmap.terms ≠ [] ∧ ∀ t ∈ f.hmap.terms, 0 < t.2 := by
    rcases C12_form_partial hf (p := ⟨h, none⟩) hc hne hpos hm he hk hpu hmu hcl hu' with ⟨rfl, -⟩ | ⟨f, rfl, f1, f2, f3, -⟩ | ⟨h5, -⟩
    · exact .inl rfl
    · exact .inr ⟨f, rfl, f2, f3, f1⟩
    · cases h5
  rcases hone with rfl | ⟨f, rfl, f1, f2, f3⟩
  · left
    simp [asHmapslt1] at hforms
    simp [← hforms]
  · unfold asHmapslt1 at hforms
    simp only [List.map_cons, List.map_nil, List.foldl_cons, List.foldl_nil] at hforms
    cases hfs : formStep feastol f.hmap.terms fixed (ord f.hmap.terms fixed) {} with
    | mk r1 m1 =>
      rw [hfs] at hforms
      cases r1 with
      | error e => cases hforms
      | ok fs =>
        simp only [Except.map, List.nil_append, Except.ok.injEq] at hforms
        subst hforms
        rcases C13_value hf f1 f2 f3 (fun v c hv => (hfix v c hv).le) (hord _ _) hfs with ⟨rfl, -⟩ | ⟨g, rfl, -⟩
        · exact .inl rfl
        · exact .inr ⟨g, rfl⟩

theorem mapM_append_ok {α β : Type} {f : α → Except Err β} {l l' : List α} {r : List β} (h : (l ++ l').mapM f = .ok r) :
    ∃ a b, l.mapM f = .ok a ∧ l'.mapM f = .ok b ∧ r = a ++ b := by
  rw [List.mapM_append] at h
  obtain ⟨a, ha, h1⟩ := except_bind_ok h
  obtain ⟨b, hb, h2⟩ := except_bind_ok h1
  cases h2
  exact ⟨a, b, ha, hb, rfl⟩

/-- What is asked of a model. -/
structure OK [Module ℝ D] (S : Setup V D) : Prop where
  feastol : 0 ≤ S.feastol
  ord : S.ord.Valid
  setord : ∀ l, (S.setord l).Perm l
  cost : TermsCanonical S.cost.terms
  costNe : S.cost.terms ≠ []
  cons : ∀ c ∈ S.cons, ConOK c
  sigs : ∀ sig ∈ S.sigs, TermsTidy sig.hmap.terms ∧ UnitOK sig.hmap.units
  wf : WF S.fixed
  fixed : ∀ v c, S.fixed.get? v = some c → 0 < c
  slack : ∀ v, S.slack = some v → S.fixed.get? v = none ∧ Absent v S.cost.terms ∧ (∀ c ∈ S.cons, ConAbsent v c) ∧
    ∀ sig ∈ S.sigs, Absent v sig.hmap.terms

variable [Module ℝ D]

/-- The approximations at a point: each can be stated, and together they enforce the signomial constraints. -/
theorem approxs_spec {S : Setup V D} (hS : OK S) {T : ℝ} (hT : S.feastol ≤ T) {x0 : PyDict V ℝ} (hx0 : ∀ v c, x0.get? v = some c → 0 < c)
    (hsig : ∀ sig ∈ S.sigs, SigOK S.vunits S.ord S.setord x0 sig) {forms : List (List (PyDict (HV V ℝ) ℝ))}
    (h : S.sigs.mapM (approxOf S.feastol S.vunits S.ord S.setord x0) = .ok forms) :
    (∀ g ∈ forms.flatten, TermsCanonical g ∧ g ≠ [] ∧ (∀ t ∈ g, 0 < t.2) ∧ ∀ v, S.slack = some v → Absent v g) ∧
    ∀ pt, (∀ v, 0 < pt v) → (∀ g ∈ forms.flatten, termsVal pt g ≤ (1 + T) * slackVal S.slack pt) →
      ∀ sig ∈ S.sigs, sig.Holds (fun v => (x0.get? v).getD 1) ((1 + T) * max 1 (slackVal S.slack pt)) pt := by
  have hall := mapM_hmaps h
  have hsl : ∀ v, S.slack = some v → ∀ sig ∈ S.sigs, Absent v sig.hmap.terms := fun v hv => (hS.slack v hv).2.2.2
  have hss := hS.sigs
  have hf := hS.feastol
  generalize S.sigs = sigs at hall hsig hsl hss
  clear h
  induction hall with
  | nil => simp
  | @cons sig fs sigs fss hab hrest ih =>
    obtain ⟨i1, i2⟩ := ih (fun s hs => hsig s (by simp [hs])) (fun v hv s hs => hsl v hv s (by simp [hs])) (fun s hs => hss s (by simp [hs]))
    obtain ⟨o1, o2⟩ := approx_spec hf (hss sig (by simp)).1 (hss sig (by simp)).2 hS.ord hS.setord hx0 (hsig sig (by simp)) hab
    constructor
    · intro g hg
      rw [List.flatten_cons, List.mem_append] at hg
      rcases hg with hg | hg
      · obtain ⟨g1, g2, g3, g4⟩ := o1 g hg
        exact ⟨g1, g2, g3, fun v hv => g4 v (hsl v hv sig (by simp))⟩
      · exact i1 g hg
    · intro pt hpt hle s hs
      have h1 : (1 : ℝ) ≤ max 1 (slackVal S.slack pt) := le_max_left _ _
      have hT0 : 0 ≤ T := hf.trans hT
      rcases List.mem_cons.1 hs with rfl | hs
      · refine o2 pt hpt _ (by nlinarith) fun g hg => (hle g (by simp [hg])).trans ?_
        exact mul_le_mul_of_nonneg_left (le_max_right _ _) (by linarith)
      · exact i2 pt hpt (fun g hg => hle g (by simp [hg])) s hs

/-- What the solver gets for the approximations of the constructor. -/
theorem approxCons_spec {S : Setup V D} (hS : OK S) {T : ℝ} (hT : S.feastol ≤ T) {gs : List (PyDict (HV V ℝ) ℝ)}
    (hg : ∀ g ∈ gs, TermsCanonical g ∧ g ≠ [] ∧ (∀ t ∈ g, 0 < t.2) ∧ ∀ v, S.slack = some v → Absent v g)
    (hone : S.slack = none → ∀ g ∈ gs, (approxCon S.slack g : Con V D).hmaps S.feastol S.fixed S.ord ≠ .ok []) {As : List (List (Hmap V ℝ))}
    (h : (gs.map (approxCon S.slack : _ → Con V D)).mapM (Con.hmaps S.feastol S.fixed S.ord) = .ok As) :
    As.flatten.length = gs.length ∧
    (∀ f ∈ As.flatten, TermsCanonical f.terms ∧ f.terms ≠ [] ∧ (∀ t ∈ f.terms, 0 < t.2) ∧ f.fromMeq = false) ∧
    ∀ pt : V → ℝ, (∀ v, 0 < pt v) → (∀ f ∈ As.flatten, termsVal pt f.terms ≤ 1 + T) →
      ∀ g ∈ gs, termsVal (override pt S.fixed) g ≤ (1 + T) * slackVal S.slack (override pt S.fixed) := by
  have hall := List.forall₂_map_left_iff.1 (mapM_hmaps h)
  clear h
  induction hall with
  | nil => simp
  | @cons g hs gs As hab _ ih =>
    obtain ⟨g1, g2, g3, g4⟩ := hg g (by simp)
    obtain ⟨i1, i2, i3⟩ := ih (fun g' hg' => hg g' (by simp [hg'])) (fun hn g' hg' => hone hn g' (by simp [hg']))
    obtain ⟨f, rfl⟩ : ∃ f, hs = [⟨f, false⟩] := by
      rcases approx_le_one hS.feastol hS.fixed hS.ord g1 g2 g3 g4 hab with rfl | h1
      · exfalso
        cases hsl : S.slack with
        | none => exact hone hsl g (by simp) hab
        | some v => exact approx_one hS.feastol hS.fixed hS.ord g1 g2 g3 hsl (g4 v hsl) (hS.slack v hsl).1 hab rfl
      · exact h1
    obtain ⟨s1, s2⟩ := hmaps_spec hS.feastol hT hS.fixed hS.ord (approxCon_ok (D := D) g1 g3 g4) hab
    refine ⟨by simp [i1], ?_, ?_⟩
    · intro f' hf'
      rw [List.flatten_cons, List.singleton_append, List.mem_cons] at hf'
      rcases hf' with rfl | hf'
      · obtain ⟨a, b, c⟩ := s1 _ (List.mem_singleton.2 rfl)
        exact ⟨a, b, c, rfl⟩
      · exact i2 f' hf'
    · intro pt hpt hle g' hg'
      rcases List.mem_cons.1 hg' with rfl | hg'
      · exact approxCon_holds.1 ((s2 pt hpt).1 (fun f' hf' => hle f' (by simp only [List.flatten_cons, List.mem_append]; exact .inl hf')))
      · exact i3 pt hpt (fun f' hf' => hle f' (by simp only [List.flatten_cons, List.mem_append]; exact .inr hf')) g' hg'

/-- What holds of a program before and after every pass. `h0` is the cost, `G` are the constraints that stay, and `y` is the point at which the others are
approximated. -/
structure Run (S : Setup V D) (T : ℝ) (H0 : List (Hmap V ℝ)) (h0 : Hmap V ℝ) (G : List (Hmap V ℝ)) (s : Sp V) (y : PyDict V ℝ) : Prop where
  lt : s.nsp < H0.length
  inv : SGP.Inv H0 s.nsp s.prog
  split : ∃ A, s.prog.hmaps = h0 :: (A ++ G) ∧ A.length = s.nsp ∧
    (∀ f ∈ A, TermsCanonical f.terms ∧ f.terms ≠ [] ∧ (∀ t ∈ f.terms, 0 < t.2) ∧ f.fromMeq = false) ∧
    ∀ pt : V → ℝ, (∀ v, 0 < pt v) → (∀ f ∈ A, termsVal pt f.terms ≤ 1 + T) →
      ∀ sig ∈ S.sigs, sig.Holds (fun v => (y.get? v).getD 1) ((1 + T) * max 1 (slackVal S.slack (override pt S.fixed))) (override pt S.fixed)
  x0 : ∀ v c, s.guess.x0.get? v = some c → 0 < c

/-- Each approximation is a constraint for the solver, which only matters without slack. -/
def OneForm (S : Setup V D) : Prop :=
  S.slack = none → ∀ forms, S.sigs.mapM (approxOf S.feastol S.vunits S.ord S.setord S.fixed) = .ok forms →
    ∀ g ∈ forms.flatten, (approxCon S.slack g : Con V D).hmaps S.feastol S.fixed S.ord ≠ .ok []

theorem init_spec {S : Setup V D} (hS : OK S) {T : ℝ} (hT : S.feastol ≤ T) (hsig : ∀ sig ∈ S.sigs, SigOK S.vunits S.ord S.setord S.fixed sig)
    (hone : OneForm S) {s : Sp V} (h : S.init = .ok s) :
    ∃ h0 G, Run S T s.prog.hmaps h0 G s s.guess.x0 ∧ (∀ f ∈ h0 :: G, TermsCanonical f.terms ∧ f.terms ≠ [] ∧ ∀ t ∈ f.terms, 0 < t.2) ∧
      ∀ pt : V → ℝ, (∀ v, 0 < pt v) →
        termsVal pt h0.terms = termsVal (override pt S.fixed) S.cost.terms * slackVal S.slack (override pt S.fixed) ^ S.penalty ∧
        ((∀ f ∈ G, termsVal pt f.terms ≤ 1 + T) →
          1 ≤ (1 + T) * slackVal S.slack (override pt S.fixed) ∧ ∀ c ∈ S.cons, c.Holds (1 + T) (override pt S.fixed)) := by
  unfold Setup.init at h
  split at h
  · cases h
  split at h
  · cases h
  obtain ⟨forms, hforms, h2⟩ := except_bind_ok h
  obtain ⟨H, hH, h3⟩ := except_bind_ok h2
  cases h3
  obtain ⟨a1, a2⟩ := approxs_spec hS hT hS.fixed hsig hforms
  obtain ⟨p1, p2, p3⟩ := slackPow_canonical S.slack S.penalty
  have hcc : TermsCanonical S.slackCost.terms := mulTerms_canonical hS.cost p1
  have hcne : S.slackCost.terms ≠ [] := by
    intro hcon
    have hz : ∀ pt : V → ℝ, (∀ v, 0 < pt v) → termsVal pt S.cost.terms = 0 := by
      intro pt hpt
      have h4 : termsVal pt S.slackCost.terms = _ := termsVal_mulTerms hpt S.cost.terms (slackPow S.slack S.penalty)
      rw [hcon, slackPow_val] at h4
      have h5 := Real.rpow_pos_of_pos (slackVal_pos S.slack hpt) S.penalty
      have h6 : (0 : ℝ) = termsVal pt S.cost.terms * slackVal S.slack pt ^ S.penalty := by simpa [termsVal] using h4
      rcases mul_eq_zero.1 h6.symm with h7 | h7
      · exact h7
      · exact absurd h7 h5.ne'
    exact hS.costNe (canonical_zero hS.cost hz)
  -- the program without the approximations
  unfold hmaps at hH
  obtain ⟨c0, hc0, h4⟩ := except_bind_ok hH
  split at h4
  · cases h4
  rename_i hany
  obtain ⟨hss, hhss, h5⟩ := except_bind_ok h4
  cases h5
  obtain ⟨As, Gs, hAs, hGs, rfl⟩ := mapM_append_ok hhss
  have hrest : hmaps S.feastol S.slackCost (slackCons S.slack ++ S.cons) S.fixed S.ord = .ok (⟨c0.terms, false⟩ :: Gs.flatten) := by
    unfold hmaps
    rw [hc0]
    simp only [bind, Except.bind]
    rw [if_neg hany, hGs]
    rfl
  obtain ⟨h0, G, hEq, hok, hspec⟩ := program_spec hS.feastol hT hcc hcne
    (by
      intro c hc
      refine ⟨?_, noZero_of_pos hS.fixed c⟩
      rcases List.mem_append.1 hc with hc | hc
      · exact slackCons_ok _ c hc
      · exact hS.cons c hc) (fun v c hv => (hS.fixed v c hv).le) hS.ord hrest
  cases hEq
  obtain ⟨b1, b2, b3⟩ := approxCons_spec hS hT a1 (fun hn => hone hn forms hforms) hAs
  refine ⟨⟨c0.terms, false⟩, Gs.flatten, ⟨?_, ?_, ⟨As.flatten, ?_, b1, b2, ?_⟩, ?_⟩, hok, ?_⟩
  · simp only [SGP.initProg, List.length_cons, List.flatten_append, List.length_append, b1]
    omega
  · show SGP.Inv (⟨c0.terms, false⟩ :: (As ++ Gs).flatten) _ (SGP.initProg _ _)
    refine SGP.init_inv _ _ (by simp only [List.length_cons, List.flatten_append, List.length_append, b1]; omega) ?_
    intro t ht
    obtain ⟨f, hf, ht⟩ := List.mem_flatMap.1 ht
    refine GP.wf_nodup.2 ?_
    rw [List.flatten_append, List.mem_cons, List.mem_append] at hf
    rcases hf with rfl | hf | hf
    · exact ((hok _ (by simp)).1.1 t ht).1.1
    · exact ((b2 f hf).1.1 t ht).1.1
    · exact ((hok f (by simp only [List.mem_cons]; exact .inr hf)).1.1 t ht).1.1
  · simp [SGP.initProg]
  · intro pt hpt hle
    exact a2 _ (override_pos hpt hS.fixed) (b3 pt hpt hle)
  · exact hS.fixed
  · intro pt hpt
    obtain ⟨e1, e2, -⟩ := hspec pt hpt
    have hop := override_pos hpt hS.fixed
    refine ⟨?_, ?_⟩
    · rw [e1]
      show termsVal _ (Nomial.mulTerms S.cost.terms (slackPow S.slack S.penalty)) = _
      rw [termsVal_mulTerms hop, slackPow_val]
    · intro hle
      have := e2 hle
      exact ⟨slackCons_holds (D := D) (by linarith [hS.feastol]) (fun c hc => this c (List.mem_append.2 (.inl hc))),
        fun c hc => this c (List.mem_append.2 (.inr hc))⟩

theorem replace_hmaps {p : Nat} {h : Hmap V ℝ} {s s' : SGP.Prog V ℝ} (hr : SGP.replace p h s = .ok s') : s'.hmaps = s.hmaps.set p h ∧ p < s.hmaps.length := by
  unfold SGP.replace at hr
  split at hr
  · rename_i hp
    split at hr
    · cases hr
    · rename_i mm _
      cases h2 : h.terms.zipIdx.foldlM (SGP.termStep (SGP.colOf s.gen) mm.1) ⟨s.exps, s.cs, s.A, s.aIdxs p, []⟩ with
      | error e => rw [h2] at hr; cases hr
      | ok r => rw [h2] at hr; cases hr; exact ⟨rfl, hp⟩
  · cases hr

theorem replaceAll_hmaps : ∀ (us : List (Nat × Hmap V ℝ)) (s s' : SGP.Prog V ℝ), SGP.replaceAll s us = .ok s' →
    s'.hmaps = us.foldl (fun l u => l.set u.1 u.2) s.hmaps
  | [], s, s', h => by cases h; rfl
  | u :: us, s, s', h => by
    unfold SGP.replaceAll at h
    rw [List.foldlM_cons] at h
    obtain ⟨s1, h1, h2⟩ := except_bind_ok h
    rw [replaceAll_hmaps us s1 s' h2, (replace_hmaps h1).1]
    rfl

theorem replaceAll_inv {H0 : List (Hmap V ℝ)} {nsp : Nat} (hlt : nsp < H0.length) : ∀ (us : List (Nat × Hmap V ℝ)) (s s' : SGP.Prog V ℝ),
    SGP.Inv H0 nsp s → (∀ u ∈ us, 1 ≤ u.1 ∧ u.1 ≤ nsp ∧ (H0[u.1]?).map SGP.skel = some (SGP.skel u.2) ∧ ∀ t ∈ u.2.terms, WF t.1.items) →
    SGP.replaceAll s us = .ok s' → SGP.Inv H0 nsp s'
  | [], s, s', hi, _, h => by cases h; exact hi
  | u :: us, s, s', hi, hu, h => by
    unfold SGP.replaceAll at h
    rw [List.foldlM_cons] at h
    obtain ⟨s1, h1, h2⟩ := except_bind_ok h
    obtain ⟨u1, u2, u3, u4⟩ := hu u (by simp)
    have hk := replace_known h1
    rw [hi.gen] at hk
    obtain ⟨s2, r1, r2, -⟩ := SGP.replace_inv hlt hi u.1 u.2 u1 u2 u3 hk u4
    rw [h1] at r1
    cases r1
    exact replaceAll_inv hlt us s1 s' r2 (fun v hv => hu v (by simp [hv])) h2

/-- The new forms of an update. -/
theorem updates_spec {S : Setup V D} (hS : OK S) {T : ℝ} (hT : S.feastol ≤ T) {nsp : Nat} : ∀ (gs : List (PyDict (HV V ℝ) ℝ)) (k : Nat) (us : List (Nat × Hmap V ℝ)),
    (∀ g ∈ gs, TermsCanonical g ∧ g ≠ [] ∧ (∀ t ∈ g, 0 < t.2) ∧ ∀ v, S.slack = some v → Absent v g) →
    (gs.zipIdx k).mapM (fun hi => S.updateForm nsp hi.1 hi.2) = .ok us →
    ∃ fs : List (Hmap V ℝ), us = (fs.zipIdx k).map (fun fi => (1 + fi.2, fi.1)) ∧ (fs ≠ [] → k + fs.length ≤ nsp) ∧
      (∀ f ∈ fs, TermsCanonical f.terms ∧ f.terms ≠ [] ∧ (∀ t ∈ f.terms, 0 < t.2) ∧ f.fromMeq = false) ∧
      ∀ pt : V → ℝ, (∀ v, 0 < pt v) → (∀ f ∈ fs, termsVal pt f.terms ≤ 1 + T) →
        ∀ g ∈ gs, termsVal (override pt S.fixed) g ≤ (1 + T) * slackVal S.slack (override pt S.fixed)
  | [], k, us, _, h => by
    rw [List.zipIdx_nil, List.mapM_nil] at h
    cases h
    exact ⟨[], rfl, by simp, by simp, by simp⟩
  | g :: gs, k, us, hg, h => by
    rw [List.zipIdx_cons, List.mapM_cons] at h
    obtain ⟨u, hu, h1⟩ := except_bind_ok h
    obtain ⟨us', hus, h2⟩ := except_bind_ok h1
    cases h2
    obtain ⟨g1, g2, g3, g4⟩ := hg g (by simp)
    obtain ⟨f, rfl, f1, f2, f3, f4, f5⟩ := updateForm_spec hS.feastol hT hS.fixed hS.ord g1 g2 g3 hu
    obtain ⟨fs, rfl, i1, i2, i3⟩ := updates_spec hS hT gs (k + 1) us' (fun g' hg' => hg g' (by simp [hg'])) hus
    refine ⟨⟨f, false⟩ :: fs, ?_, ?_, ?_, ?_⟩
    · rw [List.zipIdx_cons, List.map_cons, Nat.add_comm k 1]
    · intro _
      by_cases hn : fs = []
      · subst hn; simp only [List.length_cons, List.length_nil]; omega
      · have := i1 hn; rw [List.length_cons]; omega
    · intro f' hf'
      rcases List.mem_cons.1 hf' with rfl | hf'
      · exact ⟨f2, f3, f4, rfl⟩
      · exact i2 f' hf'
    · intro pt hpt hle g' hg'
      rcases List.mem_cons.1 hg' with rfl | hg'
      · exact f5 pt hpt (hle ⟨f, false⟩ (by simp))
      · exact i3 pt hpt (fun f' hf' => hle f' (by simp [hf'])) g' hg'

theorem update_run {S : Setup V D} (hS : OK S) {T : ℝ} (hT : S.feastol ≤ T) {H0 : List (Hmap V ℝ)} {h0 : Hmap V ℝ} {G : List (Hmap V ℝ)} {s s' : Sp V}
    {y : PyDict V ℝ} (hr : Run S T H0 h0 G s y) (hsig : ∀ sig ∈ S.sigs, SigOK S.vunits S.ord S.setord s.guess.x0 sig) (h : S.update s = .ok s')
    (hlen : s'.prog.hmaps.map (fun f => f.terms.length) = H0.map (fun f => f.terms.length)) :
    Run S T H0 h0 G s' s'.guess.x0 ∧ s'.guess = s.guess ∧ s'.nsp = s.nsp := by
  unfold Setup.update at h
  obtain ⟨forms, hforms, h1⟩ := except_bind_ok h
  obtain ⟨us, hus, h2⟩ := except_bind_ok h1
  obtain ⟨prog, hprog, h3⟩ := except_bind_ok h2
  cases h3
  refine ⟨?_, rfl, rfl⟩
  obtain ⟨a1, a2⟩ := approxs_spec hS hT hr.x0 hsig hforms
  obtain ⟨fs, rfl, f1, f2, f3⟩ := updates_spec hS hT _ 0 us a1 hus
  obtain ⟨A, hA, hAl, hAok, -⟩ := hr.split
  have hfl : fs.length ≤ A.length := by
    by_cases hn : fs = []
    · subst hn; simp
    · have := f1 hn; omega
  have hm : prog.hmaps = h0 :: ((fs ++ A.drop fs.length) ++ G) := by
    rw [replaceAll_hmaps _ _ _ hprog, List.foldl_map, hA]
    have := SGP.setFold (fun f : Hmap V ℝ => f) 1 (A.drop fs.length ++ G) fs (A.take fs.length) [h0] 0 (by simp [hfl]) rfl
    rw [List.map_id'] at this
    have e1 : h0 :: (A ++ G) = [h0] ++ A.take fs.length ++ (A.drop fs.length ++ G) := by
      rw [List.append_assoc, ← List.append_assoc (A.take fs.length), List.take_append_drop]
      rfl
    rw [e1]
    refine this.trans ?_
    simp
  have hinv : SGP.Inv H0 s.nsp prog := by
    refine replaceAll_inv hr.lt _ _ _ hr.inv ?_ hprog
    intro u hu
    obtain ⟨⟨f, i⟩, hfi, rfl⟩ := List.mem_map.1 hu
    have hget := SGP.zipIdx_get hfi
    obtain ⟨hi, hfe⟩ := List.getElem?_eq_some_iff.1 hget
    obtain ⟨g1, -, -, g4⟩ := f2 f (List.mem_of_getElem? hget)
    refine ⟨by simp, by simp only; omega, ?_, fun t ht => GP.wf_nodup.2 (g1.1 t ht).1.1⟩
    simp only
    have hlen' := congrArg (fun l => l[1 + i]?) hlen
    have hpi : prog.hmaps[1 + i]? = some f := by
      rw [hm, Nat.add_comm 1 i, List.getElem?_cons_succ, List.getElem?_append_left (by rw [List.length_append]; omega),
        List.getElem?_append_left hi, hget]
    simp only [List.getElem?_map, hpi, Option.map_some] at hlen'
    have hsk := congrArg (fun l => l[1 + i]?) hr.inv.skel
    simp only [List.getElem?_map] at hsk
    have hAi : s.prog.hmaps[1 + i]? = some A[i] := by
      rw [hA, Nat.add_comm 1 i, List.getElem?_cons_succ, List.getElem?_append_left (by omega), List.getElem?_eq_getElem]
    rw [hAi, Option.map_some] at hsk
    cases hH : H0[1 + i]? with
    | none => rw [hH] at hsk; cases hsk
    | some x =>
      rw [hH, Option.map_some] at hsk hlen'
      rw [Option.map_some]
      have e1 : f.terms.length = x.terms.length := Option.some.inj hlen'
      have e2 : A[i].fromMeq = x.fromMeq := congrArg Prod.snd (Option.some.inj hsk)
      have e3 := (hAok A[i] (List.getElem_mem _)).2.2.2
      unfold SGP.skel
      rw [e1, ← e2, e3, g4]
  refine ⟨hr.lt, hinv, ⟨fs ++ A.drop fs.length, hm, ?_, ?_, ?_⟩, hr.x0⟩
  · simp only [List.length_append, List.length_drop]; omega
  · intro f hf
    rcases List.mem_append.1 hf with hf | hf
    · exact f2 f hf
    · exact hAok f (List.mem_of_mem_drop hf)
  · intro pt hpt hle
    exact a2 _ (override_pos hpt hS.fixed) (f3 pt hpt (fun f hf => hle f (List.mem_append.2 (.inl hf))))

variable {N : Type} [DecidableEq N]

theorem gp_run {S : Setup V D} (hS : OK S) {T : ℝ} (hT : S.feastol ≤ T) {H0 : List (Hmap V ℝ)} {h0 : Hmap V ℝ} {G : List (Hmap V ℝ)} {s s' : Sp V}
    (hr : Run S T H0 h0 G s s.guess.x0) {x0 : Option (Guess.Arg V N ℝ)} (hx0 : ∀ a, x0 = some a → ∀ v c, a.look v = some c → 0 < c) (h : S.gp s x0 = .ok s')
    (hsig : ∀ sig ∈ S.sigs, SigOK S.vunits S.ord S.setord s'.guess.x0 sig)
    (hlen : s'.prog.hmaps.map (fun f => f.terms.length) = H0.map (fun f => f.terms.length)) : Run S T H0 h0 G s' s'.guess.x0 := by
  unfold Setup.gp at h
  split at h
  · cases h; exact hr
  obtain ⟨g, hg, h1⟩ := except_bind_ok h
  have hgx : ∀ v c, g.x0.get? v = some c → 0 < c := by
    cases x0 with
    | none => cases hg; exact hr.x0
    | some a =>
      simp only [Guess.Sgp.gp, if_true, Except.ok.injEq] at hg
      subst hg
      intro v c hv
      rw [move_get?] at hv
      split at hv
      · cases hl : a.look v with
        | some c' =>
          rw [hl] at hv
          cases hv
          exact hx0 a rfl v c hl
        | none =>
          rw [hl] at hv
          exact hr.x0 v c hv
      · exact hr.x0 v c hv
  have hr' : Run S T H0 h0 G { s with guess := g } s.guess.x0 := ⟨hr.lt, hr.inv, hr.split, hgx⟩
  have hge : s'.guess = g := by
    unfold Setup.update at h1
    obtain ⟨_, -, h2⟩ := except_bind_ok h1
    obtain ⟨_, -, h3⟩ := except_bind_ok h2
    obtain ⟨_, -, h4⟩ := except_bind_ok h3
    cases h4
    rfl
  rw [hge] at hsig
  exact (update_run hS hT hr' hsig h1 hlen).1

theorem pass_ok {S : Setup V D} {optimize : Data V ℝ → Coot ℝ → Except Err SolverOut} {s s' : Sp V} {out : SolverOut} {x0 : Option (Guess.Arg V N ℝ)}
    (h : S.pass optimize s x0 = .ok (s', out)) : S.gp s x0 = .ok s' := by
  unfold Setup.pass at h
  obtain ⟨s1, h1, h2⟩ := except_bind_ok h
  obtain ⟨o, -, h3⟩ := except_bind_ok h2
  cases h3
  exact h1

theorem passes_run {S : Setup V D} (hS : OK S) {T : ℝ} (hT : S.feastol ≤ T) {H0 : List (Hmap V ℝ)} {h0 : Hmap V ℝ} {G : List (Hmap V ℝ)} {s : Sp V}
    (hr : Run S T H0 h0 G s s.guess.x0) {optimize : Data V ℝ → Coot ℝ → Except Err SolverOut} {x0 : Option (Guess.Arg V N ℝ)}
    (hx0 : ∀ a, x0 = some a → ∀ v c, a.look v = some c → 0 < c)
    {lim : Nat}
    (hsig : ∀ n s' out, n ≤ lim → S.passes optimize s x0 n = .ok (s', out) → ∀ sig ∈ S.sigs, SigOK S.vunits S.ord S.setord s'.guess.x0 sig)
    (hlen : ∀ n s' out, n ≤ lim → S.passes optimize s x0 n = .ok (s', out) →
      s'.prog.hmaps.map (fun f => f.terms.length) = H0.map (fun f => f.terms.length)) :
    ∀ n s' out, n ≤ lim → S.passes optimize s x0 n = .ok (s', out) → Run S T H0 h0 G s' s'.guess.x0
  | 0, s', out, hn, h => gp_run hS hT hr hx0 (pass_ok h) (hsig 0 s' out hn h) (hlen 0 s' out hn h)
  | n + 1, s', out, hn, h => by
    have h' := h
    rw [Setup.passes] at h'
    obtain ⟨⟨s1, o1⟩, h1, h2⟩ := except_bind_ok h'
    refine gp_run hS hT (passes_run hS hT hr hx0 hsig hlen n s1 o1 (by omega) h1) ?_ (pass_ok h2) (hsig (n + 1) s' out hn h) (hlen (n + 1) s' out hn h)
    intro a ha v c hv
    cases ha
    rw [look_ofSolve] at hv
    obtain ⟨k, hk, -⟩ := exists_mem_of_get? hv
    obtain ⟨x, -, hx⟩ := List.mem_map.1 (List.of_mem_zip hk).2
    rw [← hx]
    exact Real.exp_pos x

theorem generateResult_ok {d : Data V ℝ} {out : SolverOut} {fixed : PyDict V ℝ} {tol abstol : ℝ} {A : Coot ℝ} {r : Result V} {b : Bool}
    (h : generateResult d out fixed tol abstol A = .ok (r, b)) :
    ∃ la nu, d.varlocs.length = out.primal.length ∧
      r = ⟨out.objective, (d.varlocs.map (·.1)).zip (out.primal.map Real.exp), update ((d.varlocs.map (·.1)).zip (out.primal.map Real.exp)) fixed⟩ ∧
      generateNula d (vec out.primal) out.dual A = some (la, nu) ∧ b = checkSolution d out.objective (vec out.primal) nu la tol abstol A := by
  unfold generateResult at h
  obtain ⟨r', hr, h3⟩ := except_bind_ok h
  unfold compileVars at hr
  split at hr
  · cases hr
  rename_i hl
  rw [ne_eq, not_not] at hl
  cases hr
  split at h3
  · cases h3
  rename_i la nu hnu
  cases h3
  exact ⟨la, nu, hl, rfl, hnu, rfl⟩

theorem conAbsent_holds {v : V} {c : Con V D} (h : ConAbsent v c) {pt qt : V → ℝ} (hq : ∀ u, u ≠ v → pt u = qt u) {s : ℝ} (hh : c.Holds s pt) : c.Holds s qt := by
  cases c with
  | le se p m =>
    have hh' : physVal pt p ≤ s * physVal pt m := hh
    show physVal qt p ≤ s * physVal qt m
    unfold physVal at *
    rwa [absent_val h.1 hq, absent_val h.2 hq] at hh'
  | eq se l r =>
    have hh' : physVal pt l ≤ s * physVal pt r ∧ physVal pt r ≤ s * physVal pt l := hh
    show physVal qt l ≤ s * physVal qt r ∧ physVal qt r ≤ s * physVal qt l
    unfold physVal at *
    rwa [absent_val h.1 hq, absent_val h.2 hq] at hh'

theorem sigHolds_absent {v : V} {sig : Sg V D} (h : Absent v sig.hmap.terms) {pt qt y : V → ℝ} (hq : ∀ u, u ≠ v → pt u = qt u) {s : ℝ}
    (hh : sig.Holds y s pt) : sig.Holds y s qt := by
  have hp : termsVal pt (sig.hmap.terms.filter (fun t => 0 < t.2)) = termsVal qt (sig.hmap.terms.filter (fun t => 0 < t.2)) :=
    absent_val (fun t ht => h t (List.mem_filter.1 ht).1) hq
  have hn : termsVal pt (sig.hmap.terms.filter (fun t => t.2 < 0)) = termsVal qt (sig.hmap.terms.filter (fun t => t.2 < 0)) :=
    absent_val (fun t ht => h t (List.mem_filter.1 ht).1) hq
  have hm : ∀ B, MovesWithin B y qt sig.hmap.terms → MovesWithin B y pt sig.hmap.terms := by
    intro B hB t ht u hu htu
    rw [absent_monVal (h t ht) hq, absent_monVal (h u hu) hq]
    exact hB t ht u hu htu
  refine ⟨fun he => ?_, fun he B hB0 hB => ?_⟩
  · have := hh.1 he
    unfold SigHolds at *
    rwa [hp, hn] at this
  · have := hh.2 he B hB0 (hm B hB)
    unfold EqualWithin posPart negPart at *
    rwa [hp, hn] at this

theorem update_wf (e : PyDict V ℝ) : ∀ {d : PyDict V ℝ}, WF d → WF (update d e) := by
  unfold update
  induction e with
  | nil => intro d hd; exact hd
  | cons p e ih => intro d hd; exact ih (wf_set hd _ _)

/-- A result whose check passed, before the slack is looked at. -/
theorem result_spec {S : Setup V D} (hS : OK S) {T : ℝ} {H0 : List (Hmap V ℝ)} {h0 : Hmap V ℝ} {G : List (Hmap V ℝ)} {s : Sp V}
    (hw0 : ∀ h ∈ H0, ∀ t ∈ h.terms, (t.1.items.map (·.1)).Nodup)
    {z : PyDict V ℝ} (hr : Run S T H0 h0 G s z) (hok : ∀ f ∈ h0 :: G, TermsCanonical f.terms ∧ f.terms ≠ [] ∧ ∀ t ∈ f.terms, 0 < t.2) {out : SolverOut} {tol abstol : ℝ} (htol : tol ≤ T)
    {r : Result V} (h : generateResult s.data out S.fixed tol abstol s.prog.A = .ok (r, true)) :
    WF r.vars ∧ (∀ v c, S.fixed.get? v = some c → r.vars.get? v = some c) ∧ (∀ v c, r.vars.get? v = some c → 0 < c) ∧
    ∀ pt : V → ℝ, (∀ v, 0 < pt v) → Agrees pt r.vars → ∃ q : V → ℝ, (∀ v, 0 < q v) ∧ override q S.fixed = pt ∧
      Close tol abstol (termsVal q h0.terms) r.cost ∧ (∀ f ∈ G, termsVal q f.terms ≤ 1 + T) ∧
      ∀ sig ∈ S.sigs, sig.Holds (fun v => (z.get? v).getD 1) ((1 + T) * max 1 (slackVal S.slack pt)) pt := by
  obtain ⟨la, nu, hl, rfl, hnu, hchk⟩ := generateResult_ok h
  obtain ⟨A, hA, hAl, hAok, hAs⟩ := hr.split
  obtain ⟨r1, r2, r3, -, -, -, r7⟩ := inv_rows hr.inv
  have hvl : s.data.varlocs = s.prog.gen.varlocs := rfl
  have hget := update_get? S.fixed hS.wf ((s.data.varlocs.map (·.1)).zip (out.primal.map Real.exp))
  have hnd := (C20_columns H0 hw0).1
  rw [← hr.inv.gen, ← hvl] at hnd
  set ks := s.data.varlocs.map (·.1) with hks
  have hfree : ∀ j v, ks[j]? = some v → PyDict.get? (ks.zip (out.primal.map Real.exp)) v = some (Real.exp (vec out.primal j)) := by
    intro j v hj
    refine get?_zip ks _ hnd j v _ hj ?_
    have hjl : j < out.primal.length := by
      rw [← hl]
      have := (List.getElem?_eq_some_iff.1 hj).1
      rwa [hks, List.length_map] at this
    rw [List.getElem?_map, List.getElem?_eq_getElem hjl, vec, List.getElem?_eq_getElem hjl]
    rfl
  refine ⟨update_wf _ ?_, fun v c hv => by simp only; rw [hget, hv]; rfl, ?_, ?_⟩
  · refine GP.wf_nodup.2 ?_
    rw [List.map_fst_zip (by simp [hks, hl])]
    exact hnd
  · intro v c hv
    simp only at hv
    rw [hget] at hv
    cases hg : S.fixed.get? v with
    | some d =>
      rw [hg] at hv
      cases hv
      exact hS.fixed v _ hg
    | none =>
      rw [hg, Option.none_or] at hv
      obtain ⟨k, hk, -⟩ := exists_mem_of_get? hv
      obtain ⟨x, -, hx⟩ := List.mem_map.1 (List.of_mem_zip hk).2
      rw [← hx]
      exact Real.exp_pos x
  · intro pt hpt hag
    simp only at hag
    classical
    set q : V → ℝ := fun v => if v ∈ ks then Real.exp (vec out.primal (ks.idxOf v)) else pt v with hq
    have hqpos : ∀ v, 0 < q v := by
      intro v
      rw [hq]
      simp only
      split
      · exact Real.exp_pos _
      · exact hpt v
    have hcol : ∀ j v, ks[j]? = some v → vec out.primal j = Real.log (q v) := by
      intro j v hj
      have hm := List.mem_of_getElem? hj
      obtain ⟨hjl, hj2⟩ := List.getElem?_eq_some_iff.1 hj
      have : ks.idxOf v = j := by rw [← hj2]; exact hnd.idxOf_getElem j hjl
      rw [hq]
      simp only [hm, if_true, this, Real.log_exp]
    have hover : override q S.fixed = pt := by
      funext v
      unfold override
      cases hg : S.fixed.get? v with
      | some d => exact (hag v d (by rw [hget, hg]; rfl)).symm
      | none =>
        rw [Option.getD_none, hq]
        simp only
        split
        · rename_i hm
          have hj : ks[ks.idxOf v]? = some v := by
            rw [List.getElem?_eq_getElem (List.idxOf_lt_length_of_mem hm), List.getElem_idxOf]
          refine (hag v _ ?_).symm
          rw [hget, hg, Option.none_or]
          exact hfree _ v hj
        · rfl
    have hallok : ∀ f ∈ h0 :: (A ++ G), TermsCanonical f.terms := by
      intro f hf
      rw [List.mem_cons, List.mem_append] at hf
      rcases hf with rfl | hf | hf
      · exact (hok _ (by simp)).1
      · exact (hAok f hf).1
      · exact (hok f (by simp [hf])).1
    set ks' := (genLoop s.prog.hmaps).varlocs.map (·.1) with hks'
    set y : Nat → ℝ := fun j => ((ks'[j]?).map (fun v => Real.log (q v))).getD 0 with hy
    have hyv : ∀ j v, ks'[j]? = some v → y j = Real.log (q v) := by
      intro j v hj
      rw [hy]
      simp only [hj, Option.map_some, Option.getD_some]
    have hlen : s.prog.cs.length = s.prog.exps.length := by rw [hr.inv.cs, hr.inv.exps, List.length_map, List.length_map]
    obtain ⟨c1, c2⟩ := check_feasible h0 (A ++ G) (fun f hf t ht => ((hallok f hf).1 t ht).1.1) s.data s.prog.A
      (by rw [← hA]; exact r1) (by rw [← hA]; exact r3) out.objective (vec out.primal) nu la tol abstol hchk.symm q hqpos y
      (by rw [← hA]; exact hyv)
      (by
        rw [← hA]
        intro i hi
        exact r7 (fun v => Real.log (q v)) (vec out.primal) y hcol hyv i (by rw [← hlen]; exact hi))
    refine ⟨q, hqpos, hover, almostEqual_close c1, fun f hf => (c2 f (by simp [hf])).trans (by linarith), ?_⟩
    have := hAs q hqpos (fun f hf => (c2 f (by simp [hf])).trans (by linarith))
    rwa [hover] at this

end SeqGP
end Verif
