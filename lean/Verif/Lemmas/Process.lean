import Verif.Spec.Process
import Verif.Lemmas.Arith
import Verif.Lemmas.PyDict

/-!
# Processing results: lemmas
-/

set_option linter.unusedSectionVars false

namespace Verif
namespace Proc
open PyDict

section
variable {ι V K D : Type} [DecidableEq ι] [DecidableEq V] [Field K] [LinearOrder K] [FloorRing K] [HasPow K]
variable [AddCommGroup D] [DecidableEq D]

/-- One set: its computed variables, then what its class does. -/
def visit (r : Res ι V K) (s : Own ι V K D × List (Comp V K)) : Except Err (Res ι V K) := (compute s.2 r).bind (ownStep s.1)

mutual
theorem proc_sets : ∀ (t : Tree ι V K D) (_ : t.Shallow) (r : Res ι V K), proc t r = t.sets.foldlM visit r
  | .leaf, _, r => by rw [proc, Tree.sets]; rfl
  | .lst kids, h, r => by rw [proc, Tree.sets, procL_sets kids (by rwa [Tree.Shallow] at h) r]
  | .arr kids, h, r => by
    rw [Tree.Shallow] at h
    rw [proc, Tree.sets, procA_sets kids h.1 h.2 r]
  | .cset own comps kids, h, r => by
    rw [proc, Tree.sets, procL_sets kids (by rwa [Tree.Shallow] at h) r, List.foldlM_append]
    show _ = (setsL kids).foldlM visit r >>= fun r => [(own, comps)].foldlM visit r
    simp only [List.foldlM_cons, List.foldlM_nil]
    cases (setsL kids).foldlM visit r with
    | error e => rfl
    | ok r' =>
      show (compute comps r').bind (ownStep own) = (visit r' (own, comps) >>= fun r => pure r)
      rw [bind_pure]
      rfl
theorem procL_sets : ∀ (l : List (Tree ι V K D)) (_ : ShallowL l) (r : Res ι V K), procL l r = (setsL l).foldlM visit r
  | [], _, r => by rw [procL, setsL]; rfl
  | t :: ts, h, r => by
    rw [ShallowL] at h
    rw [procL, setsL, List.foldlM_append, proc_sets t h.1 r]
    cases t.sets.foldlM visit r with
    | error e => rfl
    | ok r' => exact procL_sets ts h.2 r'
theorem procA_sets : ∀ (l : List (Tree ι V K D)) (_ : ∀ t ∈ l, (∃ o c k, t = .cset o c k) ∨ t = .leaf) (_ : ShallowL l) (r : Res ι V K),
    procA l r = (setsL l).foldlM visit r
  | [], _, _, r => by rw [procA, setsL]; rfl
  | .cset own comps kids :: ts, h1, h, r => by
    rw [ShallowL] at h
    rw [procA, setsL, List.foldlM_append, proc_sets (.cset own comps kids) h.1 r]
    cases (Tree.cset own comps kids).sets.foldlM visit r with
    | error e => rfl
    | ok r' => exact procA_sets ts (fun t ht => h1 t (List.mem_cons_of_mem _ ht)) h.2 r'
  | .leaf :: ts, h1, h, r => by
    rw [ShallowL] at h
    rw [procA, setsL, Tree.sets, List.nil_append]
    exact procA_sets ts (fun t ht => h1 t (List.mem_cons_of_mem _ ht)) h.2 r
  | .lst kids :: ts, h1, h, r => by
    rcases h1 _ List.mem_cons_self with ⟨_, _, _, h2⟩ | h2 <;> cases h2
  | .arr kids :: ts, h1, h, r => by
    rcases h1 _ List.mem_cons_self with ⟨_, _, _, h2⟩ | h2 <;> cases h2
end

/-! ### Writing computed values -/

theorem setAll_other {d : PyDict V K} {vs : List V} {val : List K} {v : V} (h : v ∉ vs) : (setAll d vs val).get? v = d.get? v := by
  unfold setAll
  induction vs generalizing d val with
  | nil => rfl
  | cons w vs ih =>
    cases val with
    | nil => rfl
    | cons x val =>
      rw [List.zip_cons_cons, List.foldl_cons, ih (fun h2 => h (List.mem_cons_of_mem _ h2)), get?_set,
        if_neg (by simpa using fun h2 : w = v => h (h2 ▸ List.mem_cons_self))]

theorem setAll_at {d : PyDict V K} {vs : List V} {val : List K} (hn : vs.Nodup) {i : Nat} {v : V} {x : K} (hv : vs[i]? = some v)
    (hx : val[i]? = some x) : (setAll d vs val).get? v = some x := by
  unfold setAll
  induction vs generalizing d val i with
  | nil => cases hv
  | cons w vs ih =>
    cases val with
    | nil => cases hx
    | cons y val =>
      rw [List.zip_cons_cons, List.foldl_cons]
      cases i with
      | zero =>
        cases hv; cases hx
        have := setAll_other (d := d.set v x) (vs := vs) (val := val) (List.nodup_cons.1 hn).1
        unfold setAll at this
        rw [this, get?_set_self]
      | succ i => exact ih (List.nodup_cons.1 hn).2 hv hx

theorem setAll_contains {d : PyDict V K} {vs : List V} {val : List K} (hl : val.length = vs.length) {v : V} (h : v ∈ vs ∨ d.contains v = true) :
    (setAll d vs val).contains v = true := by
  unfold setAll
  induction vs generalizing d val with
  | nil =>
    rcases h with h | h
    · cases h
    · exact h
  | cons w vs ih =>
    cases val with
    | nil => cases hl
    | cons x val =>
      rw [List.zip_cons_cons, List.foldl_cons]
      refine ih (Nat.succ.inj hl) ?_
      rcases h with h | h
      · rcases List.mem_cons.1 h with rfl | h
        · right; rw [contains_iff]; exact ⟨x, get?_set_self _ _ _⟩
        · exact .inl h
      · right
        rw [contains_iff] at h ⊢
        rw [get?_set]
        obtain ⟨y, hy⟩ := h
        by_cases h2 : (w == v) = true
        · exact ⟨x, by rw [if_pos h2]⟩
        · exact ⟨y, by rw [if_neg h2, hy]⟩

/-- What a step of computing does. -/
theorem computeStep_ok {r r' : Res ι V K} {c : Comp V K} (h : computeStep r c = .ok r') :
    ∃ val, c.fn r.base.vars = .ok val ∧ val.length = c.elems.length ∧
      r' = { r with base := { r.base with vars := setAll r.base.vars c.elems val }, free := setAll r.free c.elems val } := by
  unfold computeStep at h
  obtain ⟨val, h1, h2⟩ := except_bind_ok h
  by_cases h3 : val.length = c.elems.length
  · rw [if_pos h3] at h2
    cases h2
    exact ⟨val, h1, h3, rfl⟩
  · rw [if_neg h3] at h2
    cases h2

/-! ### What sets do on their own -/

/-- The parts of a result that are about values are the same. -/
structure SameVals (r r' : Res ι V K) : Prop where
  vars : r'.base.vars = r.base.vars
  free : r'.free = r.free
  sens : r'.base.sens = r.base.sens

theorem SameVals.refl (r : Res ι V K) : SameVals r r := ⟨rfl, rfl, rfl⟩

theorem SameVals.trans {a b c : Res ι V K} (h : SameVals a b) (h' : SameVals b c) : SameVals a c :=
  ⟨h'.vars.trans h.vars, h'.free.trans h.free, h'.sens.trans h.sens⟩

theorem tight_same {tol : K} {cons : List (Warn.Con ι V K D)} {r r' : Warn.Res ι V K} (h : Warn.tight tol cons r = .ok r') :
    r'.vars = r.vars ∧ r'.sens = r.sens := by
  unfold Warn.tight at h
  induction cons generalizing r with
  | nil => cases h; exact ⟨rfl, rfl⟩
  | cons c cons ih =>
    rw [List.foldlM_cons] at h
    obtain ⟨r1, h1, h2⟩ := except_bind_ok h
    obtain ⟨e1, e2⟩ := ih h2
    have : r1.vars = r.vars ∧ r1.sens = r.sens := by
      unfold Warn.tightStep at h1
      obtain ⟨l, _, h1⟩ := except_bind_ok h1
      obtain ⟨rt, _, h1⟩ := except_bind_ok h1
      by_cases h3 : rt = 0
      · rw [if_pos h3] at h1; cases h1
      · rw [if_neg h3] at h1
        obtain ⟨q, _, h1⟩ := except_bind_ok h1
        by_cases h4 : tol ≤ |1 - l / rt * q|
        · simp only [if_pos h4] at h1
          obtain ⟨b, _, h1⟩ := except_bind_ok h1
          cases h1
          exact ⟨rfl, rfl⟩
        · simp only [if_neg h4] at h1
          cases h1
          exact ⟨rfl, rfl⟩
    exact ⟨e1.trans this.1, e2.trans this.2⟩

theorem loose_same (tol : K) (re : Bool) (cons : List ι) (r : Warn.Res ι V K) :
    (Warn.loose tol re cons r).2.vars = r.vars ∧ (Warn.loose tol re cons r).2.sens = r.sens := by
  have hs : ∀ (r : Warn.Res ι V K) c, (Warn.looseStep tol r c).vars = r.vars ∧ (Warn.looseStep tol r c).sens = r.sens := by
    intro r c
    unfold Warn.looseStep Warn.append
    split_ifs <;> exact ⟨rfl, rfl⟩
  induction cons generalizing r with
  | nil => exact ⟨rfl, rfl⟩
  | cons c cons ih =>
    unfold Warn.loose
    by_cases h : tol ≤ (r.sens.get? c).getD 0 ∧ re
    · rw [if_pos h]; exact hs r c
    · rw [if_neg h]; exact ⟨(ih _).1.trans (hs r c).1, (ih _).2.trans (hs r c).2⟩

theorem bounded_same {b : Warn.Bounder K} {xs : List (Warn.BVar ι V)} {r r' : Warn.Res ι V K} (h : Warn.bounded b xs r = .ok r') :
    r'.vars = r.vars ∧ r'.sens = r.sens := by
  unfold Warn.bounded at h
  obtain ⟨out, _, h⟩ := except_bind_ok h
  cases h
  have : ∀ (l : List (Warn.Label × List V)) (r : Warn.Res ι V K),
      (l.foldl (fun r p => Warn.append r "Arbitrarily Bounded Variables" (.bound p.1 p.2)) r).vars = r.vars ∧
      (l.foldl (fun r p => Warn.append r "Arbitrarily Bounded Variables" (.bound p.1 p.2)) r).sens = r.sens := by
    intro l
    induction l with
    | nil => exact fun _ => ⟨rfl, rfl⟩
    | cons p l ih => exact fun r => ⟨(ih _).1, (ih _).2⟩
  exact this out r

theorem onBase_ok {f : Warn.Res ι V K → Except Err (Warn.Res ι V K)} {r r' : Res ι V K} (h : onBase f r = .ok r') :
    ∃ b, f r.base = .ok b ∧ r' = { r with base := b } := by
  unfold onBase at h
  obtain ⟨b, h1, h2⟩ := except_bind_ok h
  cases h2
  exact ⟨b, h1, rfl⟩

theorem checkEqually_ok {v : V} {r r' : Res ι V K} (h : checkEqually v r = .ok r') :
    ∃ val l, r.free.get? v = some val ∧ Relax.getRelaxed [val] [()] = .ok l ∧
      r' = { r with relaxed := r.relaxed ++ l.map (fun p => .all (trunc (9 / 10 + (p.1 - 1) * 100))) } := by
  unfold checkEqually at h
  obtain ⟨val, h1, h⟩ := except_bind_ok h
  obtain ⟨l, h2, h⟩ := except_bind_ok h
  cases h
  refine ⟨val, l, ?_, h2, rfl⟩
  unfold getItem at h1
  cases h3 : r.free.get? v with
  | none => rw [h3] at h1; cases h1
  | some x => rw [h3] at h1; cases h1; rfl

theorem checkRelaxed_ok {vs : List V} {single : List Bool} {n : Nat} {r r' : Res ι V K} (h : checkRelaxed vs single n r = .ok r') :
    ∃ vals l notes, vs.mapM (getItem r.free) = .ok vals ∧ Relax.getRelaxed vals (List.range n) = .ok l ∧ l.mapM (relaxNote single) = .ok notes ∧
      r' = { r with relaxed := r.relaxed ++ notes } := by
  unfold checkRelaxed at h
  obtain ⟨vals, h1, h⟩ := except_bind_ok h
  obtain ⟨l, h2, h⟩ := except_bind_ok h
  obtain ⟨notes, h3, h⟩ := except_bind_ok h
  cases h
  exact ⟨vals, l, notes, h1, h2, h3, rfl⟩

theorem checkConstants_notes {vars : List (V × V × K)} {r r' : Res ι V K} (h : checkConstants vars r = .ok r') :
    ∃ vals l notes, vars.mapM (fun x => getItem r.free x.1) = .ok vals ∧ Relax.getRelaxed vals (vars.map (fun x => x.2)) = .ok l ∧
      l.mapM (constNote r.free) = .ok notes ∧ r' = { r with relaxed := r.relaxed ++ notes } := by
  unfold checkConstants at h
  obtain ⟨vals, h1, h⟩ := except_bind_ok h
  obtain ⟨l, h2, h⟩ := except_bind_ok h
  obtain ⟨notes, h3, h⟩ := except_bind_ok h
  cases h
  exact ⟨vals, l, notes, h1, h2, h3, rfl⟩

theorem checkConstants_ok {vars : List (V × V × K)} {r r' : Res ι V K} (h : checkConstants vars r = .ok r') :
    ∃ notes, r' = { r with relaxed := r.relaxed ++ notes } := by
  unfold checkConstants at h
  obtain ⟨vals, h1, h⟩ := except_bind_ok h
  obtain ⟨l, h2, h⟩ := except_bind_ok h
  obtain ⟨notes, h3, h⟩ := except_bind_ok h
  cases h
  exact ⟨notes, rfl⟩

/-- The loop over `_derelax_map` of a set, if it has one. -/
def senssStep (own : Own ι V K D) (d : PyDict V K) : Except Err (PyDict V K) :=
  match own with
  | .constants m _ => m.foldlM transfer d
  | _ => .ok d

/-- What sets do on their own: the values and the sensitivities of constraints stay; warnings are added; only a map of relaxed constants changes the
sensitivities of variables. -/
theorem ownStep_ok {own : Own ι V K D} {r r' : Res ι V K} (h : ownStep own r = .ok r') :
    SameVals r r' ∧ senssStep own r.senss = .ok r'.senss ∧ ∃ notes, r'.relaxed = r.relaxed ++ notes := by
  cases own with
  | plain => cases h; exact ⟨.refl _, rfl, [], by simp⟩
  | tight tol cons =>
    obtain ⟨b, h1, rfl⟩ := onBase_ok h
    obtain ⟨e1, e2⟩ := tight_same h1
    exact ⟨⟨e1, rfl, e2⟩, rfl, [], by simp⟩
  | loose tol re cons =>
    obtain ⟨b, h1, rfl⟩ := onBase_ok h
    unfold looseRaise at h1
    split_ifs at h1
    cases h1
    obtain ⟨e1, e2⟩ := loose_same tol re cons r.base
    exact ⟨⟨e1, rfl, e2⟩, rfl, [], by simp⟩
  | bounded b xs =>
    obtain ⟨b, h1, rfl⟩ := onBase_ok h
    obtain ⟨e1, e2⟩ := bounded_same h1
    exact ⟨⟨e1, rfl, e2⟩, rfl, [], by simp⟩
  | relaxedEqually v =>
    obtain ⟨val, l, _, _, rfl⟩ := checkEqually_ok h
    exact ⟨⟨rfl, rfl, rfl⟩, rfl, _, rfl⟩
  | relaxed vs single n =>
    obtain ⟨vals, l, notes, _, _, _, rfl⟩ := checkRelaxed_ok h
    exact ⟨⟨rfl, rfl, rfl⟩, rfl, _, rfl⟩
  | constants m vars =>
    unfold ownStep at h
    obtain ⟨s, h1, h⟩ := except_bind_ok h
    obtain ⟨notes, rfl⟩ := checkConstants_ok h
    exact ⟨⟨rfl, rfl, rfl⟩, h1, _, rfl⟩

/-- Computing keeps everything but the values. -/
theorem compute_rest {cs : List (Comp V K)} {r r' : Res ι V K} (h : compute cs r = .ok r') :
    r'.senss = r.senss ∧ r'.relaxed = r.relaxed ∧ r'.base.sens = r.base.sens ∧ r'.base.warnings = r.base.warnings ∧ r'.base.bounded = r.base.bounded := by
  unfold compute at h
  revert h
  generalize cs.filter (due r.base.vars) = l
  intro h
  induction l generalizing r with
  | nil => cases h; exact ⟨rfl, rfl, rfl, rfl, rfl⟩
  | cons c l ih =>
    rw [List.foldlM_cons] at h
    obtain ⟨r1, h1, h⟩ := except_bind_ok h
    obtain ⟨val, _, _, rfl⟩ := computeStep_ok h1
    have := ih h
    exact this

end
end Proc
end Verif
