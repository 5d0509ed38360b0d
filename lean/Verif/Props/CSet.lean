import Verif.Lemmas.CSet

/-! # C22, C47 and C52: sets of constraints -/

set_option linter.unusedSectionVars false

namespace Verif
namespace CSet
open GP PyDict
variable {V K : Type} [DecidableEq V] [Field K] [LinearOrder K] [IsStrictOrderedRing K]

theorem except_map_ok {α β : Type} {x : Except Err α} {f : α → β} {b : β} (h : x.map f = .ok b) : ∃ a, x = .ok a ∧ f a = b := by
  cases x with
  | error e => cases h
  | ok a => exact ⟨a, rfl, by simpa [Except.map] using h⟩

theorem except_bind_ok' {α β : Type} {x : Except Err α} {f : α → Except Err β} {b : β} (h : x.bind f = .ok b) :
    ∃ a, x = .ok a ∧ f a = .ok b := by
  cases x with
  | error e => cases h
  | ok a => exact ⟨a, rfl, h⟩

theorem except_mapError_ok {α : Type} {x : Except Err α} {f : Err → Err} {b : α} (h : x.mapError f = .ok b) : x = .ok b := by
  cases x with
  | error e => cases h
  | ok a => simpa [Except.mapError] using h

theorem forall_leaves {o : Obj V K} {os : List (Obj V K)} (h : ∀ c ∈ leavesL (o :: os), c.OK) :
    (∀ c ∈ leaves1 o, c.OK) ∧ (∀ c ∈ leavesL os, c.OK) := by
  rw [leavesL] at h
  exact ⟨fun c hc => h c (List.mem_append.2 (Or.inl hc)), fun c hc => h c (List.mem_append.2 (Or.inr hc))⟩

mutual
theorem state_step : (o : Obj V K) → (∀ c ∈ leaves1 o, c.OK) → (t : St V) → state o = .ok t →
    Step (leaves1 o) (fixed1 o) (vars1 o) {} t
  | .con c, hok, t, h => by
    rw [state, Except.ok.injEq] at h
    rw [← h, leaves1, fixed1]
    exact leaf_step c (hok c (by rw [leaves1]; simp))
  | .cset kids own fixed, hok, t, h => by
    rw [state] at h
    obtain ⟨s, hs, rfl⟩ := except_map_ok h
    rw [leaves1] at hok
    rw [leaves1, fixed1, vars1]
    exact (finish_step (initL_step kids hok {} s hs) own fixed).1
  | .raw _, _, t, h => by rw [state] at h; cases h
  | .lst _, _, t, h => by rw [state] at h; cases h
  | .arr _, _, t, h => by rw [state] at h; cases h
  | .bad, _, t, h => by rw [state] at h; cases h
theorem updateFlat_step : (o : Obj V K) → (∀ c ∈ leaves1 o, c.OK) → (s t : St V) → updateFlat o s = .ok t →
    Step (leaves1 o) (fixed1 o) (vars1 o) s t
  | .con c, hok, s, t, h => by
    rw [updateFlat] at h
    obtain ⟨u, hu, rfl⟩ := except_map_ok h
    rw [state, Except.ok.injEq] at hu
    rw [← hu, leaves1, fixed1]
    exact (leaf_step c (hok c (by rw [leaves1]; simp))).update s
  | .cset kids own fixed, hok, s, t, h => by
    rw [updateFlat] at h
    obtain ⟨u, hu, rfl⟩ := except_map_ok h
    rw [state] at hu
    obtain ⟨s', hs', rfl⟩ := except_map_ok hu
    rw [leaves1] at hok
    rw [leaves1, fixed1, vars1]
    exact (finish_step (initL_step kids hok {} s' hs') own fixed).1.update s
  | .raw kids, hok, s, t, h => by
    rw [updateFlat] at h
    rw [leaves1] at hok
    rw [leaves1, fixed1, vars1]
    exact updateFlatL_step kids hok s t h
  | .lst kids, hok, s, t, h => by
    rw [updateFlat] at h
    rw [leaves1] at hok
    rw [leaves1, fixed1, vars1]
    exact updateFlatL_step kids hok s t h
  | .arr kids, hok, s, t, h => by
    rw [updateFlat] at h
    rw [leaves1] at hok
    rw [leaves1, fixed1, vars1]
    exact updateEach_step kids hok s t h
  | .bad, _, s, t, h => by rw [updateFlat] at h; cases h
theorem updateFlatL_step : (os : List (Obj V K)) → (∀ c ∈ leavesL os, c.OK) → (s t : St V) → updateFlatL os s = .ok t →
    Step (leavesL os) (fixedL os) (varsL os) s t
  | [], _, s, t, h => by
    rw [updateFlatL, Except.ok.injEq] at h
    rw [← h, leavesL, fixedL, varsL]
    exact Step.refl s
  | o :: os, hok, s, t, h => by
    rw [updateFlatL] at h
    obtain ⟨u, hu, hr⟩ := except_bind_ok' h
    obtain ⟨h1, h2⟩ := forall_leaves hok
    rw [leavesL, fixedL, varsL]
    exact (updateFlat_step o h1 s u hu).trans (updateFlatL_step os h2 u t hr)
theorem updateEach_step : (os : List (Obj V K)) → (∀ c ∈ leavesL os, c.OK) → (s t : St V) → updateEach os s = .ok t →
    Step (leavesL os) (fixedL os) (varsL os) s t
  | [], _, s, t, h => by
    rw [updateEach, Except.ok.injEq] at h
    rw [← h, leavesL, fixedL, varsL]
    exact Step.refl s
  | o :: os, hok, s, t, h => by
    rw [updateEach] at h
    obtain ⟨u, hu, hr⟩ := except_bind_ok' h
    obtain ⟨w, hw, rfl⟩ := except_map_ok hu
    obtain ⟨h1, h2⟩ := forall_leaves hok
    rw [leavesL, fixedL, varsL]
    exact ((state_step o h1 w hw).update s).trans (updateEach_step os h2 _ t hr)
theorem init1_step : (o : Obj V K) → (∀ c ∈ leaves1 o, c.OK) → (s t : St V) → init1 o s = .ok t →
    Step (leaves1 o) (fixed1 o) (vars1 o) s t
  | .con c, hok, s, t, h => by
    rw [init1] at h
    obtain ⟨u, hu, rfl⟩ := except_map_ok h
    rw [state, Except.ok.injEq] at hu
    rw [← hu, leaves1, fixed1]
    exact (leaf_step c (hok c (by rw [leaves1]; simp))).update s
  | .cset kids own fixed, hok, s, t, h => by
    rw [init1] at h
    obtain ⟨u, hu, rfl⟩ := except_map_ok h
    rw [state] at hu
    obtain ⟨s', hs', rfl⟩ := except_map_ok hu
    rw [leaves1] at hok
    rw [leaves1, fixed1, vars1]
    exact (finish_step (initL_step kids hok {} s' hs') own fixed).1.update s
  | .raw _, _, s, t, h => by rw [init1] at h; cases h
  | .lst kids, hok, s, t, h => by
    rw [init1] at h
    rw [leaves1] at hok
    rw [leaves1, fixed1, vars1]
    exact updateFlatL_step kids hok s t (except_mapError_ok h)
  | .arr kids, hok, s, t, h => by
    rw [init1] at h
    rw [leaves1] at hok
    rw [leaves1, fixed1, vars1]
    exact updateFlatL_step kids hok s t (except_mapError_ok h)
  | .bad, _, s, t, h => by rw [init1] at h; cases h
theorem initL_step : (os : List (Obj V K)) → (∀ c ∈ leavesL os, c.OK) → (s t : St V) → initL os s = .ok t →
    Step (leavesL os) (fixedL os) (varsL os) s t
  | [], _, s, t, h => by
    rw [initL, Except.ok.injEq] at h
    rw [← h, leavesL, fixedL, varsL]
    exact Step.refl s
  | o :: os, hok, s, t, h => by
    rw [initL] at h
    obtain ⟨u, hu, hr⟩ := except_bind_ok' h
    obtain ⟨h1, h2⟩ := forall_leaves hok
    rw [leavesL, fixedL, varsL]
    exact (init1_step o h1 s u hu).trans (initL_step os h2 u t hr)
end

end CSet

open CSet GP PyDict
variable {V K : Type} [DecidableEq V] [Field K] [LinearOrder K] [IsStrictOrderedRing K]

/-- The rules for single constraints hold of what follows from them. -/
theorem leafOK_setBounded (ls : List (Leaf V K)) (own : V → Side → Prop) (F : List V) (h : ∀ v s, OwnBound ls F v s → own v s) :
    LeafOK (SetBounded own (eqsOf ls)) ls := by
  refine ⟨?_, ?_⟩
  · intro e he v x hx
    exact ⟨fun hp => .own (h v _ (Or.inr ⟨e, he, x, hx, hp⟩)), fun hn => .own (h v _ (Or.inr ⟨e, he, x, hx, hn⟩))⟩
  · intro e he v x s hx hall
    refine .same he hx ?_ ?_
    · intro w y hw hne hs
      have := hall w y hw hne
      rwa [if_pos hs] at this
    · intro w y hw hne hs
      have := hall w y hw hne
      rwa [if_neg hs] at this

/-- What follows from the rules is there once nothing changes any more. -/
theorem setBounded_mem {ls : List (Leaf V K)} (hok : ∀ c ∈ ls, c.OK) {B : List (Bd V)} {q : Meq V} (own : V → Side → Prop)
    (hown : ∀ v s, own v s → (v, s) ∈ B)
    (hrule : ∀ e ∈ eqsOf ls, ∀ v x d, (v, x) ∈ e → Rule B q (v, d) (meqCond ⟨e⟩ v x d)) (hd : Done B q) (v : V) (s : Side)
    (h : SetBounded own (eqsOf ls) v s) : (v, s) ∈ B := by
  have hnz : ∀ e ∈ eqsOf ls, ∀ vx ∈ e, vx.2 ≠ 0 := by
    intro e he vx hvx
    obtain ⟨c, hc, he⟩ := List.mem_flatMap.1 he
    cases c with
    | ineq _ _ => simp at he
    | meq u vks =>
      obtain ⟨_, _, h3⟩ := hok _ hc
      cases u with
      | nil => simp at he
      | cons p ps =>
        cases p with
        | nil => simp at he
        | cons t p =>
          have he : e = t.1.items := by simpa using he
          subst he
          exact ((h3 _ (List.mem_cons_self ..) t (List.mem_cons_self ..)).2 vx hvx).2
  induction h with
  | own h => exact hown _ _ h
  | @same e v x s he hv h1 h2 ih1 ih2 =>
    refine done_closed hd (hrule e he v x s hv) ?_
    intro b' hb'
    obtain ⟨kx, hkx, rfl⟩ := List.mem_map.1 hb'
    obtain ⟨hkx, hne⟩ := List.mem_filter.1 hkx
    have hne : kx.1 ≠ v := by simpa using hne
    have hs := npSign_eq kx.2 x (hnz e he kx hkx) (hnz e he _ hv)
    by_cases hsg : (0 < kx.2 ↔ 0 < x)
    · rw [if_neg (fun hh => (hs.1 hh) hsg)]
      exact ih1 kx.1 kx.2 hkx hne hsg
    · rw [if_pos (hs.2 hsg)]
      exact ih2 kx.1 kx.2 hkx hne hsg

/-- **C22.** The bounds a set of constraints reports are exactly those that follow, for any nesting, provided every equality in it has at
least two variables (part of `Leaf.OK`). Without that the statement is false: `C22_bounded_fails`. -/
theorem C22_bounded_partial (kids : List (Obj V K)) (own : List V) (fixed : V → Bool) (hok : ∀ c ∈ leavesL kids, c.OK) (t : St V)
    (h : state (.cset kids own fixed) = .ok t) (v : V) (s : Side) :
    (v, s) ∈ t.bounded ↔ SetBounded (OwnBound (leavesL kids) (fixed1 (.cset kids own fixed))) (eqsOf (leavesL kids)) v s := by
  rw [state] at h
  obtain ⟨s', hs', rfl⟩ := except_map_ok h
  obtain ⟨hst, hd⟩ := finish_step (initL_step kids hok {} s' hs') own fixed
  have hf : fixed1 (.cset kids own fixed) = fixedL kids ++ (varsL kids ++ own).filter fixed := by rw [fixed1]
  rw [hf]
  constructor
  · intro hm
    refine (hst.good _ ⟨by simp, by simp [PyDict.get?]⟩ (leafOK_setBounded _ _ _ (fun _ _ h => h)) ?_).sound (v, s) hm
    intro w hw d
    exact .own (Or.inl hw)
  · exact setBounded_mem hok _ hst.own hst.rule hd v s

/-- C22: nesting and order do not matter. -/
theorem C22_order (kids kids' : List (Obj V K)) (own own' : List V) (fixed fixed' : V → Bool) (hok : ∀ c ∈ leavesL kids, c.OK)
    (hperm : (leavesL kids).Perm (leavesL kids'))
    (hfix : ∀ v, v ∈ fixed1 (.cset kids own fixed) ↔ v ∈ fixed1 (.cset kids' own' fixed')) (t t' : St V)
    (h : state (.cset kids own fixed) = .ok t) (h' : state (.cset kids' own' fixed') = .ok t') (b : Bd V) :
    b ∈ t.bounded ↔ b ∈ t'.bounded := by
  obtain ⟨v, s⟩ := b
  rw [C22_bounded_partial kids own fixed hok t h, C22_bounded_partial kids' own' fixed' (fun c hc => hok c (hperm.mem_iff.2 hc)) t' h']
  have hi : ∀ e, e ∈ ineqsOf (leavesL kids) ↔ e ∈ ineqsOf (leavesL kids') := fun e => (hperm.flatMap_right _).mem_iff
  have he : ∀ e, e ∈ eqsOf (leavesL kids) ↔ e ∈ eqsOf (leavesL kids') := fun e => (hperm.flatMap_right _).mem_iff
  have key : ∀ (ls ls' : List (Leaf V K)) (F F' : List V), (∀ e, e ∈ ineqsOf ls → e ∈ ineqsOf ls') → (∀ e, e ∈ eqsOf ls → e ∈ eqsOf ls') →
      (∀ v, v ∈ F → v ∈ F') → SetBounded (OwnBound ls F) (eqsOf ls) v s → SetBounded (OwnBound ls' F') (eqsOf ls') v s := by
    intro ls ls' F F' h1 h2 h3 hb
    induction hb with
    | own h =>
      apply SetBounded.own
      rcases h with h | ⟨e, he, hx⟩
      · exact Or.inl (h3 _ h)
      · exact Or.inr ⟨e, h1 e he, hx⟩
    | same he hv _ _ ih1 ih2 => exact .same (h2 _ he) hv ih1 ih2
  constructor
  · exact key _ _ _ _ (fun e => (hi e).1) (fun e => (he e).1) (fun v => (hfix v).1)
  · exact key _ _ _ _ (fun e => (hi e).2) (fun e => (he e).2) (fun v => (hfix v).2)

/-- The set whose only element is one constraint. -/
theorem state_single (c : Leaf V K) (own : List V) (fixed : V → Bool) :
    state (.cset [.con c] own fixed) = .ok (finish own fixed (update {} ⟨c.vks, c.bounded, c.meqBounded⟩)) := by
  simp only [state, initL, init1, Except.map, Except.bind]

/-- The hypotheses can be met: `[x >= 1, [x == y]]` gives `y` a lower bound and no upper bound. -/
example : ∃ t, state (.cset [.con (.ineq [[(⟨[("x", -1)]⟩, 1)]] ["x"]),
      .lst [.con (.meq [[(⟨[("x", 1), ("y", -1)]⟩, 1)], [(⟨[("y", 1), ("x", -1)]⟩, 1)]] ["x", "y"])]] [] (fun _ => false) : Obj String ℚ) = .ok t ∧
    ("y", Side.lower) ∈ t.bounded ∧ ("y", Side.upper) ∉ t.bounded ∧
    (∀ c ∈ leavesL [.con (.ineq [[(⟨[("x", -1)]⟩, 1)]] ["x"]),
      .lst [.con (.meq [[(⟨[("x", 1), ("y", -1)]⟩, 1)], [(⟨[("y", 1), ("x", -1)]⟩, 1)]] ["x", "y"])]], Leaf.OK (V := String) (K := ℚ) c) := by
  refine ⟨finish [] (fun _ => false) (update (update {} (let c : Leaf String ℚ := .ineq [[(⟨[("x", -1)]⟩, 1)]] ["x"]; ⟨c.vks, c.bounded, c.meqBounded⟩))
    (let c : Leaf String ℚ := .meq [[(⟨[("x", 1), ("y", -1)]⟩, 1)], [(⟨[("y", 1), ("x", -1)]⟩, 1)]] ["x", "y"]; ⟨c.vks, c.bounded, c.meqBounded⟩)), ?_, ?_, ?_, ?_⟩
  · simp only [state, initL, init1, updateFlatL, updateFlat, Except.map, Except.bind, Except.mapError]
  · decide +kernel
  · decide +kernel
  · intro c hc
    simp only [leavesL, leaves1, List.append_nil, List.cons_append, List.nil_append, List.mem_cons, List.not_mem_nil, or_false] at hc
    rcases hc with rfl | rfl
    · refine ⟨by simp, ?_⟩
      intro p hp t ht vx hvx
      simp only [List.mem_singleton] at hp
      subst hp
      simp only [List.mem_singleton] at ht
      subst ht
      simp only [List.mem_singleton] at hvx
      subst hvx
      norm_num
    · refine ⟨by decide, by simp, ?_⟩
      intro p hp t ht
      simp only [List.mem_cons, List.not_mem_nil, or_false] at hp
      rcases hp with rfl | rfl <;> simp only [List.mem_singleton] at ht <;> subst ht <;> refine ⟨by decide, ?_⟩ <;> intro vx hvx <;>
        simp only [List.mem_cons, List.not_mem_nil, or_false] at hvx <;> rcases hvx with rfl | rfl <;> norm_num

/-- **C22 fails** for an equality with a single variable: the set `[x == 3]` reports no bound for `x`. -/
theorem C22_bounded_fails : ∃ (kids : List (Obj String ℚ)) (t : St String),
    kids = [.con (.meq [[(⟨[("x", 1)]⟩, 1 / 3)], [(⟨[("x", -1)]⟩, 3)]] ["x"])] ∧ state (.cset kids [] (fun _ => false)) = .ok t ∧
    t.bounded = [] ∧ ∀ s, SetBounded (OwnBound (leavesL kids) (fixed1 (.cset kids [] (fun _ => false)))) (eqsOf (leavesL kids)) "x" s := by
  refine ⟨_, _, rfl, state_single _ _ _, by decide +kernel, ?_⟩
  intro s
  refine .same (e := [("x", 1)]) (x := 1) ?_ (by simp) ?_ ?_
  · simp [leavesL, leaves1, eqsOf]
  · intro w y hw hne
    simp only [List.mem_singleton, Prod.mk.injEq] at hw
    exact absurd hw.1 hne
  · intro w y hw hne
    simp only [List.mem_singleton, Prod.mk.injEq] at hw
    exact absurd hw.1 hne

/-! ## C47: every constraint is listed once -/

theorem except_bind_error {ε α β : Type} {x : Except ε α} {f : α → Except ε β} {e : ε} (h : x = .error e) : x.bind f = .error e := by
  subst h; rfl

section C47
omit [IsStrictOrderedRing K]

mutual
/-- `updateFlat` is `_update` over what `flatiter` yields. -/
theorem updateFlat_eq : ∀ (o : Obj V K) (s : St V),
    updateFlat o s = (flat1 (some .vks) o).foldlM (fun s o => (state o).map (update s)) s
  | .con c, s => by rw [updateFlat, flat1]; rcases h : state (.con c) <;> simp [Except.map, h]
  | .cset kids own fixed, s => by
    rw [updateFlat, flat1]; rcases h : state (.cset kids own fixed) <;> simp [Except.map, Obj.has, h]
  | .raw kids, s => by rw [updateFlat, flat1, updateFlatL_eq kids s]; simp [Obj.has]
  | .lst kids, s => by rw [updateFlat, flat1, updateFlatL_eq kids s]
  | .arr kids, s => by rw [updateFlat, flat1, updateEach_eq kids s]
  | .bad, s => by rw [updateFlat, flat1]; simp [state, Except.map]
theorem updateFlatL_eq : ∀ (os : List (Obj V K)) (s : St V),
    updateFlatL os s = (flatL (some .vks) os).foldlM (fun s o => (state o).map (update s)) s
  | [], s => by rw [updateFlatL, flatL]; rfl
  | o :: os, s => by
    rw [updateFlatL, flatL, List.foldlM_append, updateFlat_eq o s]
    show Except.bind _ _ = Except.bind _ _
    congr 1
    funext t
    exact updateFlatL_eq os t
theorem updateEach_eq : ∀ (os : List (Obj V K)) (s : St V),
    updateEach os s = os.foldlM (fun s o => (state o).map (update s)) s
  | [], s => by rw [updateEach]; rfl
  | o :: os, s => by
    rw [updateEach, List.foldlM_cons]
    show Except.bind _ _ = Except.bind _ _
    congr 1
    funext t
    exact updateEach_eq os t
end

mutual
/-- What is asked for its solver form is what is inside. -/
theorem solver1_leaves : ∀ (o : Obj V K) (l : List (Leaf V K)), solver1 o = .ok l → l = leaves1 o
  | .con c, l, h => by rw [solver1] at h; cases h; rw [leaves1]
  | .cset kids own fixed, l, h => by rw [solver1] at h; rw [leaves1]; exact solverL_leaves kids l h
  | .raw kids, l, h => by rw [solver1] at h; rw [leaves1]; exact solverL_leaves kids l h
  | .lst kids, l, h => by rw [solver1] at h; rw [leaves1]; exact solverL_leaves kids l h
  | .arr kids, l, h => by rw [solver1] at h; rw [leaves1]; exact solverEach_leaves kids l h
  | .bad, l, h => by rw [solver1] at h; cases h
theorem solverL_leaves : ∀ (os : List (Obj V K)) (l : List (Leaf V K)), solverL os = .ok l → l = leavesL os
  | [], l, h => by rw [solverL] at h; cases h; rw [leavesL]
  | o :: os, l, h => by
    rw [solverL] at h
    obtain ⟨a, ha, h⟩ := except_bind_ok' h
    obtain ⟨b, hb, rfl⟩ := except_map_ok h
    rw [leavesL, solver1_leaves o a ha, solverL_leaves os b hb]
theorem solverEach_leaves : ∀ (os : List (Obj V K)) (l : List (Leaf V K)), solverEach os = .ok l → l = leavesL os
  | [], l, h => by rw [solverEach] at h; cases h; rw [leavesL]
  | .con c :: os, l, h => by
    rw [solverEach] at h
    obtain ⟨a, ha, h⟩ := except_bind_ok' h
    obtain ⟨b, hb, rfl⟩ := except_map_ok h
    cases ha
    rw [leavesL, leaves1, solverEach_leaves os b hb]
  | .cset kids own fixed :: os, l, h => by
    rw [solverEach] at h
    obtain ⟨a, ha, h⟩ := except_bind_ok' h
    obtain ⟨b, hb, rfl⟩ := except_map_ok h
    rw [leavesL, leaves1, solverEach_leaves os b hb, solverL_leaves kids a ha]
  | .raw kids :: os, l, h => by
    rw [solverEach] at h
    obtain ⟨a, ha, h⟩ := except_bind_ok' h
    obtain ⟨b, hb, rfl⟩ := except_map_ok h
    rw [leavesL, leaves1, solverEach_leaves os b hb, solverL_leaves kids a ha]
  | .lst kids :: os, l, h => by rw [solverEach] at h; cases h
  | .arr kids :: os, l, h => by rw [solverEach] at h; cases h
  | .bad :: os, l, h => by rw [solverEach] at h; cases h
end

mutual
theorem solver1_usable : ∀ (o : Obj V K), usable1 true o = true → ∃ l, solver1 o = .ok l
  | .con c, _ => ⟨_, by rw [solver1]⟩
  | .cset kids own fixed, h => by rw [usable1] at h; rw [solver1]; exact solverL_usable kids h
  | .raw kids, h => by rw [usable1] at h; cases h
  | .lst kids, h => by rw [usable1] at h; rw [solver1]; exact solverL_usable kids h
  | .arr kids, h => by rw [usable1] at h; rw [solver1]; exact solverEach_usable kids h
  | .bad, h => by rw [usable1] at h; cases h
theorem solverL_usable : ∀ (os : List (Obj V K)), usableL true os = true → ∃ l, solverL os = .ok l
  | [], _ => ⟨_, by rw [solverL]⟩
  | o :: os, h => by
    rw [usableL, Bool.and_eq_true] at h
    obtain ⟨a, ha⟩ := solver1_usable o h.1
    obtain ⟨b, hb⟩ := solverL_usable os h.2
    exact ⟨a ++ b, by rw [solverL, ha, hb]; rfl⟩
theorem solverEach_usable : ∀ (os : List (Obj V K)), usableE true os = true → ∃ l, solverEach os = .ok l
  | [], _ => ⟨_, by rw [solverEach]⟩
  | .con c :: os, h => by
    rw [usableE, Bool.and_eq_true] at h
    obtain ⟨b, hb⟩ := solverEach_usable os h.2
    exact ⟨[c] ++ b, by rw [solverEach, hb]; rfl⟩
  | .cset kids own fixed :: os, h => by
    rw [usableE, Bool.and_eq_true] at h
    obtain ⟨a, ha⟩ := solverL_usable kids (by simpa using h.1)
    obtain ⟨b, hb⟩ := solverEach_usable os h.2
    exact ⟨a ++ b, by rw [solverEach, ha, hb]; rfl⟩
  | .raw kids :: os, h => by rw [usableE] at h; cases h
  | .lst kids :: os, h => by rw [usableE] at h; cases h
  | .arr kids :: os, h => by rw [usableE] at h; cases h
  | .bad :: os, h => by rw [usableE] at h; cases h
end

mutual
/-- Usable objects are accepted. -/
theorem state_usable : ∀ (o : Obj V K), usable1 true o = true → (match o with
    | .con _ => True
    | .cset _ _ _ => True
    | _ => False) → ∃ t, state o = .ok t
  | .con c, _, _ => ⟨_, by rw [state]⟩
  | .cset kids own fixed, h, _ => by
    rw [usable1] at h
    obtain ⟨t, ht⟩ := initL_usable kids h {}
    exact ⟨_, by rw [state, ht]; rfl⟩
  | .raw _, _, h => h.elim
  | .lst _, _, h => h.elim
  | .arr _, _, h => h.elim
  | .bad, _, h => h.elim
theorem updateFlat_usable : ∀ (o : Obj V K), usable1 true o = true → ∀ s, ∃ t, updateFlat o s = .ok t
  | .con c, h, s => by
    obtain ⟨t, ht⟩ := state_usable (.con c) h trivial
    exact ⟨_, by rw [updateFlat, ht]; rfl⟩
  | .cset kids own fixed, h, s => by
    obtain ⟨t, ht⟩ := state_usable (.cset kids own fixed) h trivial
    exact ⟨_, by rw [updateFlat, ht]; rfl⟩
  | .raw _, h, s => by rw [usable1] at h; cases h
  | .lst kids, h, s => by
    rw [usable1] at h; rw [updateFlat]; exact updateFlatL_usable kids h s
  | .arr kids, h, s => by
    rw [usable1] at h; rw [updateFlat]; exact updateEach_usable kids h s
  | .bad, h, s => by rw [usable1] at h; cases h
theorem updateFlatL_usable : ∀ (os : List (Obj V K)), usableL true os = true → ∀ s, ∃ t, updateFlatL os s = .ok t
  | [], _, s => ⟨_, by rw [updateFlatL]⟩
  | o :: os, h, s => by
    rw [usableL, Bool.and_eq_true] at h
    obtain ⟨a, ha⟩ := updateFlat_usable o h.1 s
    obtain ⟨b, hb⟩ := updateFlatL_usable os h.2 a
    exact ⟨b, by rw [updateFlatL, ha]; exact hb⟩
theorem updateEach_usable : ∀ (os : List (Obj V K)), usableE true os = true → ∀ s, ∃ t, updateEach os s = .ok t
  | [], _, s => ⟨_, by rw [updateEach]⟩
  | .con c :: os, h, s => by
    rw [usableE, Bool.and_eq_true] at h
    obtain ⟨b, hb⟩ := updateEach_usable os h.2 (update s ⟨c.vks, c.bounded, c.meqBounded⟩)
    exact ⟨b, by rw [updateEach, state]; exact hb⟩
  | .cset kids own fixed :: os, h, s => by
    rw [usableE, Bool.and_eq_true] at h
    obtain ⟨a, ha⟩ := initL_usable kids (by simpa using h.1) {}
    obtain ⟨b, hb⟩ := updateEach_usable os h.2 (update s (finish own fixed a))
    exact ⟨b, by rw [updateEach, state, ha]; exact hb⟩
  | .raw kids :: os, h, s => by rw [usableE] at h; cases h
  | .lst kids :: os, h, s => by rw [usableE] at h; cases h
  | .arr kids :: os, h, s => by rw [usableE] at h; cases h
  | .bad :: os, h, s => by rw [usableE] at h; cases h
/-- The elements of an array, handled as the elements of a list. -/
theorem updateFlatL_usableE : ∀ (os : List (Obj V K)), usableE true os = true → ∀ s, ∃ t, updateFlatL os s = .ok t
  | [], _, s => ⟨_, by rw [updateFlatL]⟩
  | .con c :: os, h, s => by
    rw [usableE, Bool.and_eq_true] at h
    obtain ⟨b, hb⟩ := updateFlatL_usableE os h.2 (update s ⟨c.vks, c.bounded, c.meqBounded⟩)
    exact ⟨b, by rw [updateFlatL, updateFlat, state]; exact hb⟩
  | .cset kids own fixed :: os, h, s => by
    rw [usableE, Bool.and_eq_true] at h
    obtain ⟨a, ha⟩ := initL_usable kids (by simpa using h.1) {}
    obtain ⟨b, hb⟩ := updateFlatL_usableE os h.2 (update s (finish own fixed a))
    exact ⟨b, by rw [updateFlatL, updateFlat, state, ha]; exact hb⟩
  | .raw kids :: os, h, s => by rw [usableE] at h; cases h
  | .lst kids :: os, h, s => by rw [usableE] at h; cases h
  | .arr kids :: os, h, s => by rw [usableE] at h; cases h
  | .bad :: os, h, s => by rw [usableE] at h; cases h
theorem init1_usable : ∀ (o : Obj V K), usable1 true o = true → ∀ s, ∃ t, init1 o s = .ok t
  | .con c, h, s => by
    obtain ⟨t, ht⟩ := state_usable (.con c) h trivial
    exact ⟨_, by rw [init1, ht]; rfl⟩
  | .cset kids own fixed, h, s => by
    obtain ⟨t, ht⟩ := state_usable (.cset kids own fixed) h trivial
    exact ⟨_, by rw [init1, ht]; rfl⟩
  | .raw _, h, s => by rw [usable1] at h; cases h
  | .lst kids, h, s => by
    rw [usable1] at h
    obtain ⟨t, ht⟩ := updateFlatL_usable kids h s
    exact ⟨t, by rw [init1, ht]; rfl⟩
  | .arr kids, h, s => by
    rw [usable1] at h
    obtain ⟨t, ht⟩ := updateFlatL_usableE kids h s
    exact ⟨t, by rw [init1, ht]; rfl⟩
  | .bad, h, s => by rw [usable1] at h; cases h
theorem initL_usable : ∀ (os : List (Obj V K)), usableL true os = true → ∀ s, ∃ t, initL os s = .ok t
  | [], _, s => ⟨_, by rw [initL]⟩
  | o :: os, h, s => by
    rw [usableL, Bool.and_eq_true] at h
    obtain ⟨a, ha⟩ := init1_usable o h.1 s
    obtain ⟨b, hb⟩ := initL_usable os h.2 a
    exact ⟨b, by rw [initL, ha]; exact hb⟩
end

mutual
/-- What is not a constraint is never accepted. -/
theorem state_bad : ∀ (o : Obj V K), bad1 o = true → ∀ t, state o ≠ .ok t
  | .con c, h, _ => by rw [bad1] at h; cases h
  | .cset kids own fixed, h, t => by
    rw [bad1] at h
    intro ht
    rw [state] at ht
    obtain ⟨s, hs, _⟩ := except_map_ok ht
    exact initL_bad kids h {} s hs
  | .raw _, _, t => by rw [state]; intro h; cases h
  | .lst _, _, t => by rw [state]; intro h; cases h
  | .arr _, _, t => by rw [state]; intro h; cases h
  | .bad, _, t => by rw [state]; intro h; cases h
theorem updateFlat_bad : ∀ (o : Obj V K), bad1 o = true → ∀ s t, updateFlat o s ≠ .ok t
  | .con c, h, _, _ => by rw [bad1] at h; cases h
  | .cset kids own fixed, h, s, t => by
    intro ht
    rw [updateFlat] at ht
    obtain ⟨a, ha, _⟩ := except_map_ok ht
    exact state_bad (.cset kids own fixed) h a ha
  | .raw kids, h, s, t => by rw [bad1] at h; rw [updateFlat]; exact updateFlatL_bad kids h s t
  | .lst kids, h, s, t => by rw [bad1] at h; rw [updateFlat]; exact updateFlatL_bad kids h s t
  | .arr kids, h, s, t => by rw [bad1] at h; rw [updateFlat]; exact updateEach_bad kids h s t
  | .bad, _, s, t => by rw [updateFlat]; intro h; cases h
theorem updateFlatL_bad : ∀ (os : List (Obj V K)), badL os = true → ∀ s t, updateFlatL os s ≠ .ok t
  | [], h, _, _ => by rw [badL] at h; cases h
  | o :: os, h, s, t => by
    intro ht
    rw [updateFlatL] at ht
    obtain ⟨a, ha, hb⟩ := except_bind_ok' ht
    rw [badL, Bool.or_eq_true] at h
    rcases h with h | h
    · exact updateFlat_bad o h s a ha
    · exact updateFlatL_bad os h a t hb
theorem updateEach_bad : ∀ (os : List (Obj V K)), badL os = true → ∀ s t, updateEach os s ≠ .ok t
  | [], h, _, _ => by rw [badL] at h; cases h
  | o :: os, h, s, t => by
    intro ht
    rw [updateEach] at ht
    obtain ⟨a, ha, hb⟩ := except_bind_ok' ht
    obtain ⟨c, hc, _⟩ := except_map_ok ha
    rw [badL, Bool.or_eq_true] at h
    rcases h with h | h
    · exact state_bad o h c hc
    · exact updateEach_bad os h a t hb
theorem init1_bad : ∀ (o : Obj V K), bad1 o = true → ∀ s t, init1 o s ≠ .ok t
  | .con c, h, _, _ => by rw [bad1] at h; cases h
  | .cset kids own fixed, h, s, t => by
    intro ht
    rw [init1] at ht
    obtain ⟨a, ha, _⟩ := except_map_ok ht
    exact state_bad (.cset kids own fixed) h a ha
  | .raw kids, h, s, t => by rw [init1]; intro h; cases h
  | .lst kids, h, s, t => by
    rw [bad1] at h
    intro ht
    rw [init1] at ht
    exact updateFlatL_bad kids h s t (except_mapError_ok ht)
  | .arr kids, h, s, t => by
    rw [bad1] at h
    intro ht
    rw [init1] at ht
    exact updateFlatL_bad kids h s t (except_mapError_ok ht)
  | .bad, _, s, t => by rw [init1]; intro h; cases h
theorem initL_bad : ∀ (os : List (Obj V K)), badL os = true → ∀ s t, initL os s ≠ .ok t
  | [], h, _, _ => by rw [badL] at h; cases h
  | o :: os, h, s, t => by
    intro ht
    rw [initL] at ht
    obtain ⟨a, ha, hb⟩ := except_bind_ok' ht
    rw [badL, Bool.or_eq_true] at h
    rcases h with h | h
    · exact init1_bad o h s a ha
    · exact initL_bad os h a t hb
end

mutual
/-- The exception is a `ValueError`. -/
theorem init1_error : ∀ (o : Obj V K) (s : St V) (e : Err), init1 o s = .error e → e = .valueError
  | .con c, s, e, h => by rw [init1, state] at h; cases h
  | .cset kids own fixed, s, e, h => by
    rw [init1, state] at h
    cases hi : initL kids ({} : St V) with
    | ok t => rw [hi] at h; cases h
    | error e' =>
      rw [hi] at h
      cases h
      exact initL_error kids _ _ hi
  | .raw _, s, e, h => by rw [init1] at h; cases h; rfl
  | .lst kids, s, e, h => by
    rw [init1] at h
    cases hi : updateFlatL kids s with
    | ok t => rw [hi] at h; cases h
    | error e' => rw [hi] at h; cases h; rfl
  | .arr kids, s, e, h => by
    rw [init1] at h
    cases hi : updateFlatL kids s with
    | ok t => rw [hi] at h; cases h
    | error e' => rw [hi] at h; cases h; rfl
  | .bad, s, e, h => by rw [init1] at h; cases h; rfl
theorem initL_error : ∀ (os : List (Obj V K)) (s : St V) (e : Err), initL os s = .error e → e = .valueError
  | [], s, e, h => by rw [initL] at h; cases h
  | o :: os, s, e, h => by
    rw [initL] at h
    cases hi : init1 o s with
    | error e' =>
      rw [hi] at h
      cases h
      exact init1_error o s _ hi
    | ok a => rw [hi] at h; exact initL_error os a e h
end

mutual
theorem flat1_usable : ∀ (o : Obj V K), usable1 false o = true → flat1 none o = (leaves1 o).map .con
  | .con c, _ => by rw [flat1, leaves1]; rfl
  | .cset kids own fixed, h => by
    rw [usable1] at h
    rw [flat1, leaves1]
    exact flatL_usable kids h
  | .raw _, h => by rw [usable1] at h; cases h
  | .lst kids, h => by
    rw [usable1] at h
    rw [flat1, leaves1]
    exact flatL_usable kids h
  | .arr kids, h => by
    rw [usable1] at h
    rw [flat1, leaves1]
    exact flatE_usable kids h
  | .bad, h => by rw [usable1] at h; cases h
theorem flatL_usable : ∀ (os : List (Obj V K)), usableL false os = true → flatL none os = (leavesL os).map .con
  | [], _ => by rw [flatL, leavesL]; rfl
  | o :: os, h => by
    rw [usableL, Bool.and_eq_true] at h
    rw [flatL, leavesL, List.map_append, flat1_usable o h.1, flatL_usable os h.2]
theorem flatE_usable : ∀ (os : List (Obj V K)), usableE false os = true → os = (leavesL os).map .con
  | [], _ => by rw [leavesL]; rfl
  | .con c :: os, h => by
    rw [usableE, Bool.and_eq_true] at h
    rw [leavesL, leaves1, List.map_append, ← flatE_usable os h.2]
    rfl
  | .cset kids own fixed :: os, h => by rw [usableE] at h; cases h
  | .raw kids :: os, h => by rw [usableE] at h; cases h
  | .lst kids :: os, h => by rw [usableE] at h; cases h
  | .arr kids :: os, h => by rw [usableE] at h; cases h
  | .bad :: os, h => by rw [usableE] at h; cases h
end

/-- **C47** (the solver's view). Whatever the nesting, the constraints asked for their solver forms are all the constraints inside, each once
and in order; nothing is left out silently. -/
theorem C47_solver (kids : List (Obj V K)) (l : List (Leaf V K)) (h : solverL kids = .ok l) : l = leavesL kids :=
  solverL_leaves kids l h

/-- **C47** (unusable elements). A set with something in it, at any depth, that is not a constraint cannot be made. Which exception is
raised is the subject of C97. -/
theorem C47_rejects (kids : List (Obj V K)) (own : List V) (fixed : V → Bool) (h : badL kids = true) :
    ∃ e, state (.cset kids own fixed) = .error e := by
  rw [state]
  cases hi : initL kids ({} : St V) with
  | ok t => exact absurd hi (initL_bad kids h {} t)
  | error e => exact ⟨e, rfl⟩

/-- **C47** (usable elements). A set made of constraints, sets, lists, dicts and arrays of constraints or sets is accepted, and all its
constraints reach the solver. -/
theorem C47_accepts (kids : List (Obj V K)) (own : List V) (fixed : V → Bool) (h : usableL true kids = true) :
    (∃ t, state (.cset kids own fixed) = .ok t) ∧ solverL kids = .ok (leavesL kids) := by
  constructor
  · exact state_usable (.cset kids own fixed) (by rw [usable1]; exact h) trivial
  · obtain ⟨l, hl⟩ := solverL_usable kids h
    rw [hl, solverL_leaves kids l hl]

/-- **C47** (`flat()`). With no set inside an array, `flat()` yields all the constraints, each once and in order. With one it does not:
`C47_flat_fails`. -/
theorem C47_flat_partial (kids : List (Obj V K)) (h : usableL false kids = true) : flatL none kids = (leavesL kids).map .con :=
  flatL_usable kids h

/-- The hypotheses can be met. -/
example : ∃ kids : List (Obj String ℚ), usableL false kids = true ∧ leavesL kids = [.ineq [] ["x"], .ineq [] ["y"]] ∧
    badL (.lst [.arr [.bad]] :: kids) = true := by
  refine ⟨[.con (.ineq [] ["x"]), .lst [.arr [.con (.ineq [] ["y"])], .cset [.lst []] [] (fun _ => false)]], ?_, ?_, ?_⟩ <;>
    simp [usableL, usable1, usableE, leavesL, leaves1, badL, bad1]

/-- **C47 fails** for `flat()` with a set inside an array: the set is yielded instead of its constraints. Such a set is accepted, and its
constraints do reach the solver. -/
theorem C47_flat_fails : ∃ (kids : List (Obj String ℚ)), usableL true kids = true ∧
    leavesL kids = [.ineq [] ["x"], .ineq [] ["y"]] ∧ (flatL none kids).length = 1 := by
  refine ⟨[.arr [.cset [.con (.ineq [] ["x"]), .con (.ineq [] ["y"])] [] (fun _ => false)]], ?_, ?_, ?_⟩ <;>
    simp [usableL, usable1, usableE, leavesL, leaves1, flatL, flat1]

end C47

/-! ## C52: docstring verification -/

theorem length_sides (l : List V) : (l.flatMap (fun v => [(v, Side.upper), (v, Side.lower)])).length = 2 * l.length := by
  induction l with
  | nil => rfl
  | cons v l ih => rw [List.flatMap_cons, List.length_append, ih]; simp; omega

theorem mem_sides (l : List V) (b : Bd V) : b ∈ l.flatMap (fun v => [(v, Side.upper), (v, Side.lower)]) ↔ b.1 ∈ l := by
  rw [List.mem_flatMap]
  constructor
  · rintro ⟨v, hv, hb⟩
    simp only [List.mem_cons, List.not_mem_nil, or_false] at hb
    rcases hb with rfl | rfl <;> exact hv
  · intro h
    obtain ⟨v, s⟩ := b
    exact ⟨v, h, by cases s <;> simp⟩

theorem nodup_sides (l : List V) (h : l.Nodup) : (l.flatMap (fun v => [(v, Side.upper), (v, Side.lower)])).Nodup := by
  rw [List.nodup_flatMap]
  refine ⟨fun v _ => by simp, ?_⟩
  refine List.Pairwise.imp ?_ h
  intro a b hab x hx hx'
  simp only [List.mem_cons, List.not_mem_nil, or_false] at hx hx'
  rcases hx with rfl | rfl <;> simp [hab] at hx'

/-- What `missingbounds` ends up with, if only the model's own variables are concerned. -/
theorem missingBounds_nil (vks : List V) (B : List (Bd V)) (q : Meq V) (hv : vks.Nodup) (hB : B.Nodup) (hs : ∀ b ∈ B, b.1 ∈ vks) (hw : WF q)
    (hk : ∀ b cs, q.get? b = some cs → b.1 ∈ vks) (hd : Done B q) :
    missingBounds vks B q = [] ↔ ∀ v ∈ vks, ∀ s, (v, s) ∈ B := by
  have hnd : (q.map (·.1)).Nodup := by
    unfold List.Nodup
    rw [List.pairwise_map]
    exact hw.imp (fun {a b} hab => by simpa using hab)
  have hkeys : ∀ b, b ∈ q.map (·.1) ↔ ∃ cs, PyDict.get? q b = some cs := by
    intro b
    constructor
    · intro hb
      obtain ⟨p, hp, rfl⟩ := List.mem_map.1 hb
      cases hg : PyDict.get? q p.1 with
      | some cs => exact ⟨cs, rfl⟩
      | none => exact absurd (get?_eq_none_iff.1 hg p hp) (by simp)
    · rintro ⟨cs, hcs⟩
      obtain ⟨k, hk, hkb⟩ := exists_mem_of_get? hcs
      exact List.mem_map.2 ⟨_, hk, by simpa using hkb⟩
  have hdis : ∀ b ∈ q.map (·.1), b ∉ B := by
    intro b hb
    obtain ⟨cs, hcs⟩ := (hkeys b).1 hb
    exact (hd b cs hcs).1
  have hall : (B ++ q.map (·.1)).Nodup := by
    rw [List.nodup_append]
    refine ⟨hB, hnd, ?_⟩
    rintro a ha b hb rfl
    exact hdis _ hb ha
  have hsub : ∀ b ∈ B ++ q.map (·.1), b ∈ vks.flatMap (fun v => [(v, Side.upper), (v, Side.lower)]) := by
    intro b hb
    rw [mem_sides]
    rcases List.mem_append.1 hb with hb | hb
    · exact hs b hb
    · obtain ⟨cs, hcs⟩ := (hkeys b).1 hb
      exact hk b cs hcs
  unfold missingBounds
  dsimp only
  by_cases hc : B.length + (q.map (·.1)).length ≠ 2 * vks.length
  · rw [if_pos hc]
    rw [List.append_eq_nil_iff, List.filter_eq_nil_iff]
    constructor
    · rintro ⟨h1, h2⟩ v hvk s
      by_contra hn
      have := h2 (v, s) ((mem_sides _ _).2 hvk)
      simp [hn, h1] at this
    · intro h
      exfalso
      apply hc
      have hq : q.map (·.1) = [] := by
        rw [List.eq_nil_iff_forall_not_mem]
        intro b hb
        obtain ⟨cs, hcs⟩ := (hkeys b).1 hb
        exact hdis b hb (h b.1 (hk b cs hcs) b.2)
      rw [hq, List.length_nil, Nat.add_zero, ← length_sides]
      apply le_antisymm
      · exact (List.subperm_of_subset hB (fun b hb => (mem_sides _ _).2 (hs b hb))).length_le
      · exact (List.subperm_of_subset (nodup_sides _ hv) (fun b hb => h b.1 ((mem_sides _ _).1 hb) b.2)).length_le
  · rw [if_neg hc]
    have hc : B.length + (q.map (·.1)).length = 2 * vks.length := not_not.1 hc
    have hperm : (B ++ q.map (·.1)).Perm (vks.flatMap (fun v => [(v, Side.upper), (v, Side.lower)])) := by
      refine (List.subperm_of_subset hall hsub).perm_of_length_le ?_
      rw [length_sides, List.length_append, hc]
    constructor
    · intro h v hvk s
      have := hperm.mem_iff.2 ((mem_sides vks (v, s)).2 hvk)
      rw [h, List.append_nil] at this
      exact this
    · intro h
      rw [List.eq_nil_iff_forall_not_mem]
      intro b hb
      obtain ⟨cs, hcs⟩ := (hkeys b).1 hb
      exact hdis b hb (h b.1 (hk b cs hcs) b.2)

/-- **C52.** A model passes docstring verification exactly if none of the bounds noted as missing follows from its constraints and every
other bound of its variables follows once the noted ones are supplied. Proved for notes about the model's own variables (and equalities
with two or more variables); a note about another model's variable breaks the count: `C52_verify_fails`. -/
theorem C52_verify_partial (kids : List (Obj V K)) (own : List V) (fixed : V → Bool) (hok : ∀ c ∈ leavesL kids, c.OK) (t : St V)
    (h : state (.cset kids own fixed) = .ok t) (expected : List (Bd V)) (hexp : ∀ b ∈ expected, b.1 ∈ t.vks) :
    verifyRaises t expected = false ↔
      (∀ b ∈ expected, ¬ SetBounded (OwnBound (leavesL kids) (fixed1 (.cset kids own fixed))) (eqsOf (leavesL kids)) b.1 b.2) ∧
      ∀ v ∈ vars1 (.cset kids own fixed), ∀ s, SetBounded (fun v s => OwnBound (leavesL kids) (fixed1 (.cset kids own fixed)) v s ∨ (v, s) ∈ expected)
        (eqsOf (leavesL kids)) v s := by
  have hmem := C22_bounded_partial kids own fixed hok t h
  have hvks : ∀ v, v ∈ vars1 (.cset kids own fixed) ↔ v ∈ t.vks := by
    intro v
    have := (state_step (.cset kids own fixed) (by rw [leaves1]; exact hok) t h).vks v
    rw [this]; simp
  rw [state] at h
  obtain ⟨s', hs', rfl⟩ := except_map_ok h
  obtain ⟨hst, hd⟩ := finish_step (initL_step kids hok {} s' hs') own fixed
  have hf : fixed1 (.cset kids own fixed) = fixedL kids ++ (varsL kids ++ own).filter fixed := by rw [fixed1]
  rw [hf] at hmem ⊢
  set t := finish own fixed s' with ht
  have htidy : Tidy t := hst.tidy ⟨List.nodup_nil, List.nodup_nil, by simp, by simp [PyDict.get?]⟩
  have hwf := hst.wf wf_nil
  set F := fixedL kids ++ (varsL kids ++ own).filter fixed with hF
  set own' : V → Side → Prop := fun v s => OwnBound (leavesL kids) F v s ∨ (v, s) ∈ expected with hown'
  unfold verifyRaises
  have hany : (t.bounded.any (fun b => decide (b ∈ expected)) = true) ↔
      ∃ b ∈ expected, SetBounded (OwnBound (leavesL kids) F) (eqsOf (leavesL kids)) b.1 b.2 := by
    rw [List.any_eq_true]
    constructor
    · rintro ⟨b, hb, he⟩
      exact ⟨b, by simpa using he, (hmem b.1 b.2).1 hb⟩
    · rintro ⟨b, he, hb⟩
      exact ⟨b, (hmem b.1 b.2).2 hb, by simpa using he⟩
  by_cases ha : t.bounded.any (fun b => decide (b ∈ expected)) = true
  · rw [if_pos ha]
    obtain ⟨b, he, hb⟩ := hany.1 ha
    constructor
    · intro hh; cases hh
    · rintro ⟨h1, _⟩
      exact absurd hb (h1 b he)
  · rw [if_neg ha]
    have hno : ∀ b ∈ expected, ¬ SetBounded (OwnBound (leavesL kids) F) (eqsOf (leavesL kids)) b.1 b.2 :=
      fun b he hb => ha (hany.2 ⟨b, he, hb⟩)
    have hA := fun P => addMeqBounds_spec P (setUnion t.bounded expected) t.meq hwf
    obtain ⟨_, a2, a3, a4⟩ := hA (fun _ _ => True)
    obtain ⟨t1, t2, t3⟩ := addLoop_tidy (fun b => b.1 ∈ t.vks) (t.meq.length + 1) (setUnion t.bounded expected) t.meq hwf
      (nodup_setUnion _ _ htidy.nd) (by
        intro b hb
        rcases (mem_setUnion _ _ _).1 hb with hb | hb
        · exact htidy.sub b hb
        · exact hexp b hb) htidy.key
    have hm0 : Mono t.bounded t.meq (setUnion t.bounded expected) t.meq := by
      refine ⟨fun x hx => (mem_setUnion _ _ _).2 (Or.inl hx), ?_⟩
      rintro x c (hx | hx)
      · exact Or.inl ((mem_setUnion _ _ _).2 (Or.inl hx))
      · exact Or.inr hx
    dsimp only
    rw [Bool.not_eq_false', List.isEmpty_iff, missingBounds_nil t.vks (addMeqBounds (setUnion t.bounded expected) t.meq).1 _ htidy.vks t1 t2 a3 t3 a4]
    have hfin : ∀ v s, (v, s) ∈ (addMeqBounds (setUnion t.bounded expected) t.meq).1 ↔ SetBounded own' (eqsOf (leavesL kids)) v s := by
      intro v s
      constructor
      · intro hm
        have hg : Good (SetBounded own' (eqsOf (leavesL kids))) t.bounded t.meq :=
          hst.good _ ⟨by simp, by simp [PyDict.get?]⟩ (leafOK_setBounded _ _ F (fun v s h => Or.inl h)) (fun w hw d => .own (Or.inl (Or.inl hw)))
        refine ((hA _).1 ⟨?_, hg.cond⟩).sound (v, s) hm
        intro b hb
        rcases (mem_setUnion _ _ _).1 hb with hb | hb
        · exact hg.sound b hb
        · exact .own (Or.inr hb)
      · refine setBounded_mem hok own' ?_ (fun e he v x d hx => a2.rule _ _ (hm0.rule _ _ (hst.rule e he v x d hx))) a4 v s
        rintro v s (ho | ho)
        · exact a2.has _ (hm0.has _ (hst.own v s ho))
        · exact a2.has _ ((mem_setUnion _ _ _).2 (Or.inr ho))
    constructor
    · intro hh
      exact ⟨hno, fun v hv s => (hfin v s).1 (hh v ((hvks v).1 hv) s)⟩
    · rintro ⟨_, hh⟩ v hv s
      exact (hfin v s).2 (hh v ((hvks v).2 hv) s)

/-- The hypotheses can be met: a model with `x >= 1` passes if its docstring notes the missing upper bound of `x`, and not otherwise. -/
example : ∃ t, state (.cset [.con (.ineq [[(⟨[("x", -1)]⟩, 1)]] ["x"])] [] (fun _ => false) : Obj String ℚ) = .ok t ∧
    verifyRaises t [("x", Side.upper)] = false ∧ verifyRaises t [] = true ∧ verifyRaises t [("x", Side.lower)] = true :=
  ⟨_, state_single _ _ _, by decide +kernel, by decide +kernel, by decide +kernel⟩

/-- **C52 fails** if the docstring notes a variable that does not belong to the model: with `x >= 1` and a note that `y` has no upper bound
the missing upper bound of `x` goes unnoticed. -/
theorem C52_verify_fails : ∃ (kids : List (Obj String ℚ)) (t : St String),
    kids = [.con (.ineq [[(⟨[("x", -1)]⟩, 1)]] ["x"])] ∧ state (.cset kids [] (fun _ => false)) = .ok t ∧
    verifyRaises t [("y", Side.upper)] = false ∧
    "x" ∈ vars1 (.cset kids [] (fun _ => false)) ∧
    ¬ SetBounded (fun v s => OwnBound (leavesL kids) (fixed1 (.cset kids [] (fun _ => false))) v s ∨ (v, s) ∈ [("y", Side.upper)])
      (eqsOf (leavesL kids)) "x" .upper := by
  refine ⟨_, _, rfl, state_single _ _ _, by decide +kernel, by simp [vars1, varsL], ?_⟩
  intro hb
  have heq : eqsOf (leavesL [(.con (.ineq [[(⟨[("x", -1)]⟩, 1)]] ["x"]) : Obj String ℚ)]) = [] := by simp [leavesL, leaves1, eqsOf]
  rw [heq] at hb
  cases hb with
  | own h =>
    rcases h with (h | ⟨e, he, x, hx, hd⟩) | h
    · simp [fixed1, fixedL] at h
    · simp [leavesL, leaves1, ineqsOf] at he
      subst he
      simp only [List.mem_singleton, Prod.mk.injEq, true_and] at hx
      subst hx
      norm_num at hd
    · simp at h
  | same he => simp at he

end Verif
