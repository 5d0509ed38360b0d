import Verif.Spec.Sweep
import Verif.Lemmas.PyDict
import Mathlib.Data.List.Nodup
import Mathlib.Data.List.Perm.Basic
import Mathlib.Data.Multiset.Bind
import Mathlib.Algebra.BigOperators.Group.List.Basic
import Mathlib.Algebra.BigOperators.Ring.List

/-! C27: sweeps. -/

set_option linter.unusedSectionVars false

namespace Verif
open PyDict
namespace Sweep
variable {S K R : Type} [DecidableEq S]

/-! ## The grid -/

theorem product_length (axes : List (List K)) : (product axes).length = size axes := by
  induction axes with
  | nil => rfl
  | cons l ls ih =>
    have h1 : product (l :: ls) = l.flatMap (fun a => (product ls).map (a :: ·)) := rfl
    have h2 : size (l :: ls) = l.length * size ls := by simp [size]
    rw [h1, h2, List.length_flatMap]
    simp [ih]

/-- The columns of a matrix given by rows. -/
def cols {α : Type} : Nat → List (List α) → List (List α)
  | 0, _ => []
  | n + 1, M => M.filterMap List.head? :: cols n (M.map List.tail)

theorem heads_get {α : Type} (M : List (List α)) : ∀ (i : Nat) (a : α) (t : List α), (∀ r ∈ M, r ≠ []) → M[i]? = some (a :: t) →
    (M.filterMap List.head?)[i]? = some a := by
  induction M with
  | nil => intro i a t _ h; simp at h
  | cons r M ih =>
    intro i a t hM h
    obtain ⟨b, r, rfl⟩ := List.exists_cons_of_ne_nil (hM r (by simp))
    have hc : ((b :: r) :: M).filterMap List.head? = b :: M.filterMap List.head? := rfl
    rw [hc]
    cases i with
    | zero =>
      simp only [List.getElem?_cons_zero, Option.some.injEq, List.cons.injEq] at h ⊢
      exact h.1
    | succ i =>
      rw [List.getElem?_cons_succ] at h ⊢
      exact ih i a t (fun r hr => hM r (by simp [hr])) h

theorem cols_get {α : Type} (n : Nat) : ∀ (M : List (List α)) (i : Nat) (row : List α), (∀ r ∈ M, r.length = n) → M[i]? = some row →
    (cols n M).map (·[i]?) = row.map some := by
  induction n with
  | zero =>
    intro M i row hM hi
    have := hM row (List.mem_of_getElem? hi)
    rw [List.length_eq_zero_iff] at this
    simp [cols, this]
  | succ n ih =>
    intro M i row hM hi
    have hr := hM row (List.mem_of_getElem? hi)
    obtain ⟨a, row, rfl⟩ := List.exists_cons_of_length_eq_add_one hr
    have h1 := heads_get M i a row (fun r hr h => by have := hM r hr; rw [h] at this; simp at this) hi
    have h2 := ih (M.map List.tail) i row (by
      intro r hr
      obtain ⟨r', hr', rfl⟩ := List.mem_map.1 hr
      rw [List.length_tail, hM r' hr']; rfl) (by rw [List.getElem?_map, hi]; rfl)
    unfold cols
    rw [List.map_cons, List.map_cons, h1, h2]

theorem product_row (axes : List (List K)) : ∀ r ∈ product axes, r.length = axes.length := by
  induction axes with
  | nil => intro r hr; simp [product] at hr; simp [hr]
  | cons l ls ih =>
    intro r hr
    simp only [product, List.mem_flatMap, List.mem_map] at hr
    obtain ⟨a, _, r', hr', rfl⟩ := hr
    simp [ih r' hr']

theorem flatten_replicate_mul {α : Type} (a b : Nat) (l : List α) :
    (List.replicate a (List.replicate b l).flatten).flatten = (List.replicate (a * b) l).flatten := by
  induction a with
  | zero => simp
  | succ a ih =>
    rw [List.replicate_succ, List.flatten_cons, ih, Nat.succ_mul, Nat.add_comm, List.replicate_add, List.flatten_append]

theorem flatMap_const {α β : Type} (l : List α) (m : List β) : l.flatMap (fun _ => m) = (List.replicate l.length m).flatten := by
  induction l with
  | nil => rfl
  | cons a l ih => rw [List.flatMap_cons, ih, List.length_cons, List.replicate_succ, List.flatten_cons]

theorem grids_cols (axes : List (List K)) : ∀ b, grids b axes = cols axes.length (List.replicate b (product axes)).flatten := by
  induction axes with
  | nil => intro b; rfl
  | cons l ls ih =>
    intro b
    have hp : product (l :: ls) = l.flatMap (fun a => (product ls).map (a :: ·)) := rfl
    unfold grids
    rw [List.length_cons]
    unfold cols
    congr 1
    · unfold spread
      rw [List.filterMap_flatten, List.map_replicate, hp, List.filterMap_flatMap]
      congr 3
      funext a
      rw [List.filterMap_map, ← product_length]
      induction product ls with
      | nil => rfl
      | cons r P ihP =>
        have hc : (r :: P).filterMap (List.head? ∘ fun x => a :: x) = a :: P.filterMap (List.head? ∘ fun x => a :: x) := rfl
        rw [List.length_cons, List.replicate_succ, hc, ihP]
    · rw [ih, List.map_flatten, List.map_replicate, hp, List.map_flatMap]
      have : (l.flatMap fun a => List.map List.tail (List.map (fun x => a :: x) (product ls))) = (List.replicate l.length (product ls)).flatten := by
        rw [← flatMap_const]
        congr 1
        funext a
        rw [List.map_map]
        conv_rhs => rw [← List.map_id (product ls)]
        rfl
      rw [this, flatten_replicate_mul]

theorem combos_zip (axes : List (S × List K)) : combos axes = (product (axes.map (·.2))).map (List.zip (axes.map (·.1))) := by
  unfold combos
  induction axes with
  | nil => rfl
  | cons a axes ih =>
    simp only [List.map_cons, product, ih, List.flatMap_map, List.map_flatMap, List.map_map]
    rfl

/-- The vectors of the sweep hold the combinations in turn. -/
theorem vects_get (sweep : List (S × List K)) (i : Nat) (combo : List (S × K)) (h : (combos (swap2 sweep))[i]? = some combo) :
    (vects sweep).map (fun v => (v.1, v.2[i]?)) = combo.map (fun vk => (vk.1, some vk.2)) := by
  rw [combos_zip, List.getElem?_map] at h
  set axes := swap2 sweep with hax
  cases hr : (product (axes.map (·.2)))[i]? with
  | none => rw [hr] at h; cases h
  | some row =>
    rw [hr, Option.map_some, Option.some.injEq] at h
    have hl := product_row _ row (List.mem_of_getElem? hr)
    rw [List.length_map] at hl
    have hc := cols_get _ _ i row (product_row (axes.map (·.2))) hr
    have hg := grids_cols (axes.map (·.2)) 1
    rw [List.replicate_one, List.flatten_singleton] at hg
    rw [← hg] at hc
    have hv : vects sweep = List.zip (axes.map (·.1)) (grids 1 (axes.map (·.2))) := rfl
    rw [hv, ← h]
    have e1 : ∀ (ns : List S) (g : List (List K)), (List.zip ns g).map (fun v => (v.1, v.2[i]?)) = List.zip ns (g.map (·[i]?)) := by
      intro ns g
      rw [List.zip_map_right]
      rfl
    have e2 : ∀ (ns : List S) (g : List K), (List.zip ns g).map (fun v => (v.1, some v.2)) = List.zip ns (g.map some) := by
      intro ns g
      rw [List.zip_map_right]
      rfl
    rw [e1, e2, hc]

theorem combos_swap (sweep : List (S × List K)) : ((combos (swap2 sweep)).map swap2).Perm (combos sweep) := by
  match sweep with
  | [] => exact List.Perm.refl _
  | [a] =>
    have : (combos (swap2 [a])).map swap2 = combos [a] := by
      simp [combos, product, swap2, List.map_flatMap]
    rw [this]
  | a :: b :: l =>
    simp only [swap2, combos, List.map_cons, product, List.map_flatMap, List.map_map]
    rw [← Multiset.coe_eq_coe]
    have h := Multiset.bind_bind (b.2.map fun k => (b.1, k) : Multiset (S × K)) (a.2.map fun k => (a.1, k) : Multiset (S × K))
      (f := fun y x => ((product (l.map fun v => v.2.map fun k => (v.1, k))).map (fun r => x :: y :: r) : Multiset (List (S × K))))
    simp only [Multiset.coe_bind] at h
    exact h

/-! ## The constants of a pass -/

theorem get?_setS (d : PyDict S K) (k q : S) (v : K) :
    PyDict.get? (PyDict.set d k v) q = if q = k then some v else PyDict.get? d q := by
  rw [get?_set]
  by_cases h : q = k
  · subst h; simp
  · rw [if_neg h, if_neg (by simpa using fun h' => h h'.symm)]

theorem point_eq (vs : List (S × List K)) (i : Nat) : ∀ (combo : List (S × K)) (c : PyDict S K),
    vs.map (fun v => (v.1, v.2[i]?)) = combo.map (fun vk => (vk.1, some vk.2)) →
    point vs i c = combo.foldl (fun c vk => c.set vk.1 vk.2) c := by
  unfold point
  induction vs with
  | nil =>
    intro combo c h
    cases combo with
    | nil => rfl
    | cons a l => simp at h
  | cons v vs ih =>
    intro combo c h
    cases combo with
    | nil => simp at h
    | cons a combo =>
      simp only [List.map_cons, List.cons.injEq, Prod.mk.injEq] at h
      obtain ⟨⟨h1, h2⟩, h3⟩ := h
      rw [List.foldl_cons, List.foldl_cons, h2, h1]
      exact ih combo _ h3

theorem get?_sets (l : List (S × K)) : ∀ (c : PyDict S K), (l.map (·.1)).Nodup →
    (∀ vk ∈ l, (l.foldl (fun c vk => c.set vk.1 vk.2) c).get? vk.1 = some vk.2) ∧
    ∀ v, v ∉ l.map (·.1) → (l.foldl (fun c vk => c.set vk.1 vk.2) c).get? v = c.get? v := by
  induction l with
  | nil => intro c _; exact ⟨fun _ h => (List.not_mem_nil h).elim, fun _ _ => rfl⟩
  | cons a l ih =>
    intro c h
    rw [List.map_cons, List.nodup_cons] at h
    obtain ⟨i1, i2⟩ := ih (c.set a.1 a.2) h.2
    rw [List.foldl_cons]
    refine ⟨?_, ?_⟩
    · intro vk hvk
      rcases List.mem_cons.1 hvk with rfl | hvk
      · rw [i2 _ h.1, get?_setS, if_pos rfl]
      · exact i1 vk hvk
    · intro v hv
      rw [List.map_cons, List.mem_cons, not_or] at hv
      rw [i2 v hv.2, get?_setS, if_neg hv.1]

/-- If all functions have values, linked variables get them and nothing else changes. -/
theorem linkLoop_ok (kdc : PyDict S K) (linked : List (S × Fn S K)) : ∀ (c : PyDict S K), (linked.map (·.1)).Nodup →
    (∀ vf ∈ linked, ∃ k, vf.2 kdc = .ok k) →
    ∃ c', linkLoop kdc none linked c = .ok c' ∧ (∀ vf ∈ linked, ∃ k, vf.2 kdc = .ok k ∧ c'.get? vf.1 = some k) ∧
      ∀ v, v ∉ linked.map (·.1) → c'.get? v = c.get? v := by
  induction linked with
  | nil => intro c _ _; exact ⟨c, rfl, fun _ h => (List.not_mem_nil h).elim, fun _ _ => rfl⟩
  | cons a l ih =>
    intro c h hd
    rw [List.map_cons, List.nodup_cons] at h
    obtain ⟨k, hk⟩ := hd a (by simp)
    obtain ⟨c', i1, i2, i3⟩ := ih (c.set a.1 k) h.2 (fun vf hv => hd vf (by simp [hv]))
    refine ⟨c', ?_, ?_, ?_⟩
    · unfold linkLoop
      rw [hk]
      exact i1
    · intro vf hv
      rcases List.mem_cons.1 hv with rfl | hv
      · refine ⟨k, hk, ?_⟩
        rw [i3 _ h.1, get?_setS, if_pos rfl]
      · exact i2 vf hv
    · intro v hv
      rw [List.map_cons, List.mem_cons, not_or] at hv
      rw [i3 v hv.2, get?_setS, if_neg hv.1]

/-- Between passes the constants of the model are untouched. -/
structure Inv (base : PyDict S K) (sw : List S) (linked : List (S × Fn S K)) (c : PyDict S K) : Prop where
  other : ∀ v, v ∉ sw → v ∉ linked.map (·.1) → c.get? v = base.get? v
  has : ∀ v, base.contains v = true → c.contains v = true

theorem contains_of_get? {c : PyDict S K} {v : S} {k : K} (h : c.get? v = some k) : c.contains v = true := contains_iff.2 ⟨k, h⟩

/-- The constants of one pass. -/
theorem pass_constants {base : PyDict S K} {sweep : List (S × List K)} {linked : List (S × Fn S K)} {combo : List (S × K)}
    (hnl : (linked.map (·.1)).Nodup) (hnc : (combo.map (·.1)).Nodup) (hsw : ∀ v, v ∈ combo.map (·.1) ↔ v ∈ sweep.map (·.1))
    (hdis : ∀ v, v ∈ sweep.map (·.1) → v ∉ linked.map (·.1)) (hu : Unchained linked) (hd : Defined base sweep linked)
    {c : PyDict S K} (hi : Inv base (sweep.map (·.1)) linked c) :
    ∃ c', (if linked.isEmpty then .ok (combo.foldl (fun c vk => c.set vk.1 vk.2) c)
        else evalLinked linked (combo.foldl (fun c vk => c.set vk.1 vk.2) c)) = .ok c' ∧
      Right base linked combo c' ∧ Inv base (sweep.map (·.1)) linked c' := by
  obtain ⟨g1, g2⟩ := get?_sets combo c hnc
  set c1 := combo.foldl (fun c vk => c.set vk.1 vk.2) c with hc1
  have hhas : ∀ u, (base.contains u = true ∨ u ∈ sweep.map (·.1)) → c1.contains u = true := by
    intro u h
    by_cases hm : u ∈ combo.map (·.1)
    · obtain ⟨vk, hvk, rfl⟩ := List.mem_map.1 hm
      exact contains_of_get? (g1 vk hvk)
    · rcases h with h | h
      · have := hi.has u h
        obtain ⟨k, hk⟩ := contains_iff.1 this
        exact contains_of_get? ((g2 u hm).trans hk)
      · exact absurd ((hsw u).2 h) hm
  obtain ⟨c', e1, e2, e3⟩ : ∃ c', (if linked.isEmpty then .ok c1 else evalLinked linked c1) = Except.ok c' ∧
      (∀ vf ∈ linked, ∃ k, vf.2 c1 = .ok k ∧ c'.get? vf.1 = some k) ∧ ∀ v, v ∉ linked.map (·.1) → c'.get? v = c1.get? v := by
    cases hl : linked.isEmpty with
    | true =>
      rw [List.isEmpty_iff] at hl
      subst hl
      exact ⟨c1, rfl, fun _ h => (List.not_mem_nil h).elim, fun _ _ => rfl⟩
    | false => exact linkLoop_ok c1 linked c1 hnl (fun vf hv => hd vf hv c1 hhas)
  refine ⟨c', e1, ⟨?_, ?_, ?_⟩, ?_, ?_⟩
  · intro vk hvk
    rw [e3 _ (hdis _ ((hsw _).1 (List.mem_map_of_mem hvk)))]
    exact g1 vk hvk
  · intro vf hv
    obtain ⟨k, h1, h2⟩ := e2 vf hv
    refine ⟨k, ?_, h2⟩
    rw [← h1]
    exact hu vf hv c' c1 (fun u hu => e3 u hu)
  · intro v h1 h2
    rw [e3 v h2, g2 v h1]
    exact hi.other v (fun h => h1 ((hsw v).2 h)) h2
  · intro v h1 h2
    rw [e3 v h2, g2 v (fun h => h1 ((hsw v).1 h))]
    exact hi.other v h1 h2
  · intro v hv
    by_cases hm : v ∈ linked.map (·.1)
    · obtain ⟨vf, hvf, rfl⟩ := List.mem_map.1 hm
      obtain ⟨k, _, h2⟩ := e2 vf hvf
      exact contains_of_get? h2
    · obtain ⟨k, hk⟩ := contains_iff.1 (hhas v (Or.inl hv))
      exact contains_of_get? ((e3 v hm).trans hk)

/-- What a sweep assumes of its input: distinct variables, and functions that have values and do not look at each other. -/
structure Ok (base : PyDict S K) (sweep : List (S × List K)) (linked : List (S × Fn S K)) : Prop where
  sweepVars : (sweep.map (·.1)).Nodup
  linkVars : (linked.map (·.1)).Nodup
  apart : ∀ v, v ∈ sweep.map (·.1) → v ∉ linked.map (·.1)
  unchained : Unchained linked
  defined : Defined base sweep linked

theorem swap2_perm {α : Type} (l : List α) : (swap2 l).Perm l := by
  match l with
  | [] => exact List.Perm.refl _
  | [a] => exact List.Perm.refl _
  | a :: b :: l => exact List.Perm.swap a b l

theorem combo_vars (axes : List (S × List K)) : ∀ combo ∈ combos axes, combo.map (·.1) = axes.map (·.1) := by
  unfold combos
  induction axes with
  | nil => intro combo h; simp [product] at h; simp [h]
  | cons a axes ih =>
    intro combo h
    simp only [List.map_cons, product, List.mem_flatMap, List.mem_map] at h
    obtain ⟨_, ⟨k, _, rfl⟩, r, hr, rfl⟩ := h
    simp [ih r hr]

theorem Right.perm {base : PyDict S K} {linked : List (S × Fn S K)} {combo combo' : List (S × K)} {c : PyDict S K}
    (h : Right base linked combo c) (hp : combo'.Perm combo) : Right base linked combo' c :=
  ⟨fun vk hvk => h.swept vk (hp.mem_iff.1 hvk), h.fns, fun v h1 h2 => h.other v (fun hm => h1 ((hp.map _).mem_iff.2 hm)) h2⟩

/-- What comes of solving programs in turn: the programs made, the results, and the exception if any. -/
def report (solve : PyDict S K → Except Err R) (skip : Bool) : List (PyDict S K) → List (PyDict S K) × List R × Except Err Unit
  | [] => ([], [], .ok ())
  | c :: cs =>
    match solve c with
    | .ok r => (c :: (report solve skip cs).1, r :: (report solve skip cs).2.1, (report solve skip cs).2.2)
    | .error e =>
      if e = .primalInfeasible then
        if skip then (c :: (report solve skip cs).1, (report solve skip cs).2.1, (report solve skip cs).2.2) else ([c], [], .error .runtimeWarning)
      else ([c], [], .error e)

/-- All passes: the constants of each belong to its combination. -/
theorem passes_report (solve : PyDict S K → Except Err R) (skip : Bool) {base : PyDict S K} {sweep : List (S × List K)}
    {linked : List (S × Fn S K)} (ok : Ok base sweep linked) (is : List Nat) :
    ∀ (cbs : List (List (S × K))) (s : St S K R), List.Forall₂ (fun i cb => (combos (swap2 sweep))[i]? = some cb) is cbs →
      Inv base (sweep.map (·.1)) linked s.constants →
      ∃ cs, List.Forall₂ (Right base linked) cbs cs ∧
        (passes solve skip linked (vects sweep) is s).1.built = s.built ++ (report solve skip cs).1 ∧
        (passes solve skip linked (vects sweep) is s).1.results = s.results ++ (report solve skip cs).2.1 ∧
        (passes solve skip linked (vects sweep) is s).2 = (report solve skip cs).2.2 := by
  induction is with
  | nil =>
    intro cbs s h _
    cases h
    exact ⟨[], .nil, by simp [passes, report]⟩
  | cons i is ih =>
    intro cbs s h hi
    cases h with
    | cons h1 h2 =>
      rename_i cb cbs
      have hv := vects_get sweep i cb h1
      have hcv := combo_vars _ cb (List.mem_of_getElem? h1)
      have hp := (swap2_perm sweep).map (·.1)
      rw [← hcv] at hp
      obtain ⟨c', e1, e2, e3⟩ := pass_constants ok.linkVars (hp.nodup_iff.2 ok.sweepVars) (fun v => hp.mem_iff) ok.apart ok.unchained
        ok.defined hi
      have hpass : pass solve skip linked (vects sweep) s i = 
          match solve c' with
          | .ok r => (⟨c', s.built ++ [c'], s.results ++ [r]⟩, .ok ())
          | .error .primalInfeasible => (⟨c', s.built ++ [c'], s.results⟩, if skip then .ok () else .error .runtimeWarning)
          | .error e => (⟨c', s.built ++ [c'], s.results⟩, .error e) := by
        unfold pass
        dsimp only
        rw [point_eq _ _ _ _ hv, e1]
        dsimp only
        generalize solve c' = o
        cases o with
        | ok r => rfl
        | error e => cases e <;> rfl
      cases hsv : solve c' with
      | ok r =>
        rw [hsv] at hpass
        dsimp only at hpass
        obtain ⟨cs, i1, i2, i3, i4⟩ := ih cbs ⟨c', s.built ++ [c'], s.results ++ [r]⟩ h2 e3
        refine ⟨c' :: cs, .cons e2 i1, ?_⟩
        unfold passes report
        rw [hpass, hsv]
        dsimp only
        rw [i2, i3, i4]
        simp
      | error e =>
        rw [hsv] at hpass
        by_cases he : e = .primalInfeasible
        · subst he
          dsimp only at hpass
          cases skip with
          | true =>
            obtain ⟨cs, i1, i2, i3, i4⟩ := ih cbs ⟨c', s.built ++ [c'], s.results⟩ h2 e3
            refine ⟨c' :: cs, .cons e2 i1, ?_⟩
            unfold passes report
            rw [hpass, hsv]
            dsimp only
            rw [if_pos rfl, if_pos rfl]
            dsimp only
            rw [if_pos rfl, i2, i3, i4]
            simp
          | false =>
            obtain ⟨cs, i1, _⟩ := ih cbs ⟨c', s.built ++ [c'], s.results⟩ h2 e3
            refine ⟨c' :: cs, .cons e2 i1, ?_⟩
            unfold passes report
            rw [hpass, hsv]
            simp
        · obtain ⟨cs, i1, _⟩ := ih cbs ⟨c', s.built ++ [c'], s.results⟩ h2 e3
          refine ⟨c' :: cs, .cons e2 i1, ?_⟩
          have hpass' : pass solve skip linked (vects sweep) s i = (⟨c', s.built ++ [c'], s.results⟩, .error e) := by
            rw [hpass]
            cases e <;> first | rfl | exact absurd rfl he
          unfold passes report
          rw [hpass', hsv]
          simp [he]

theorem size_swap2 (sweep : List (S × List K)) : size ((swap2 sweep).map (·.2)) = size (sweep.map (·.2)) := by
  unfold size
  exact (((swap2_perm sweep).map (·.2)).map List.length).prod_eq

theorem range_get {α : Type} (l : List α) : List.Forall₂ (fun i a => l[i]? = some a) (List.range l.length) l := by
  rw [List.forall₂_iff_get]
  refine ⟨by simp, fun i h1 h2 => ?_⟩
  simp only [List.get_eq_getElem, List.getElem_range]
  exact List.getElem?_eq_getElem h2

/-- The whole sweep. -/
theorem sweep_report (solve : PyDict S K → Except Err R) (skip : Bool) {base : PyDict S K} {sweep : List (S × List K)}
    {linked : List (S × Fn S K)} (ok : Ok base sweep linked) :
    ∃ pts cs, pts.Perm (combos sweep) ∧ List.Forall₂ (Right base linked) pts cs ∧
      (runSweep solve skip base sweep linked).1.built = (report solve skip cs).1 ∧
      (runSweep solve skip base sweep linked).1.results = (report solve skip cs).2.1 ∧
      (runSweep solve skip base sweep linked).2 = match (report solve skip cs).2.2 with
        | .ok () => if (report solve skip cs).2.1 = [] then .error .runtimeWarning else .ok ()
        | .error e => .error e := by
  have hlen : (combos (swap2 sweep)).length = size (sweep.map (·.2)) := by
    rw [combos_zip, List.length_map, product_length, size_swap2]
  have hr := range_get (combos (swap2 sweep))
  rw [hlen] at hr
  obtain ⟨cs, h1, h2, h3, h4⟩ := passes_report solve skip ok _ _ ⟨base, [], []⟩ hr ⟨fun _ _ _ => rfl, fun _ h => h⟩
  refine ⟨(combos (swap2 sweep)).map swap2, cs, combos_swap sweep, ?_, ?_⟩
  · rw [List.forall₂_map_left_iff]
    exact h1.imp (fun _ _ h => h.perm (swap2_perm _))
  · unfold runSweep
    dsimp only
    rw [List.nil_append] at h2 h3
    generalize passes solve skip linked (vects sweep) (List.range (size (sweep.map (·.2)))) ⟨base, [], []⟩ = p at h2 h3 h4
    obtain ⟨s, e⟩ := p
    dsimp only at h2 h3 h4
    rw [← h2, ← h3, ← h4]
    cases e with
    | ok u => cases u; simp
    | error e => simp

theorem report_skip (solve : PyDict S K → Except Err R) (cs : List (PyDict S K))
    (hs : ∀ c ∈ cs, (∃ r, solve c = .ok r) ∨ solve c = .error .primalInfeasible) :
    report solve true cs = (cs, cs.filterMap (fun c => (solve c).toOption), .ok ()) := by
  induction cs with
  | nil => rfl
  | cons c cs ih =>
    have i := ih (fun c hc => hs c (by simp [hc]))
    unfold report
    rcases hs c (by simp) with ⟨r, hr⟩ | hr <;> rw [hr, i] <;> simp [hr, Except.toOption]

theorem report_halt (solve : PyDict S K → Except Err R) (cs : List (PyDict S K)) :
    (∃ rs, List.Forall₂ (fun c r => solve c = .ok r) cs rs ∧ report solve false cs = (cs, rs, .ok ())) ∨
    ∃ pre c post rs e, cs = pre ++ c :: post ∧ List.Forall₂ (fun c r => solve c = .ok r) pre rs ∧ solve c = .error e ∧
      report solve false cs = (pre ++ [c], rs, .error (if e = .primalInfeasible then .runtimeWarning else e)) := by
  induction cs with
  | nil => exact Or.inl ⟨[], .nil, rfl⟩
  | cons c cs ih =>
    cases hc : solve c with
    | ok r =>
      rcases ih with ⟨rs, h1, h2⟩ | ⟨pre, d, post, rs, e, h1, h2, h3, h4⟩
      · refine Or.inl ⟨r :: rs, .cons hc h1, ?_⟩
        unfold report
        rw [hc, h2]
      · refine Or.inr ⟨c :: pre, d, post, r :: rs, e, by rw [h1]; rfl, .cons hc h2, h3, ?_⟩
        unfold report
        rw [hc, h4]
        rfl
    | error e =>
      refine Or.inr ⟨[], c, cs, [], e, rfl, .nil, hc, ?_⟩
      unfold report
      rw [hc]
      by_cases he : e = .primalInfeasible <;> simp [he]

end Sweep

open Sweep
variable {S K R : Type} [DecidableEq S]

/-- C27 (skipping failures): a sweep makes one program for each combination of values, from constants that belong to that combination, and
reports the results of just those that are feasible, in order. With no result at all it raises RuntimeWarning. Partial: linked functions
look at no linked variable (`Unchained`, see `C27_linked_fails`), and a solve ends in a result or in `Infeasible`. -/
theorem C27_skip_partial (solve : PyDict S K → Except Err R) {base : PyDict S K} {sweep : List (S × List K)} {linked : List (S × Fn S K)}
    (ok : Ok base sweep linked) (hs : ∀ c, (∃ r, solve c = .ok r) ∨ solve c = .error .primalInfeasible) :
    ∃ pts cs, pts.Perm (combos sweep) ∧ List.Forall₂ (Right base linked) pts cs ∧
      (runSweep solve true base sweep linked).1.built = cs ∧
      (runSweep solve true base sweep linked).1.results = cs.filterMap (fun c => (solve c).toOption) ∧
      ((∃ c ∈ cs, ∃ r, solve c = .ok r) → (runSweep solve true base sweep linked).2 = .ok ()) ∧
      ((¬ ∃ c ∈ cs, ∃ r, solve c = .ok r) → (runSweep solve true base sweep linked).2 = .error .runtimeWarning) := by
  obtain ⟨pts, cs, h1, h2, h3, h4, h5⟩ := sweep_report solve true ok
  rw [report_skip solve cs (fun c _ => hs c)] at h3 h4 h5
  refine ⟨pts, cs, h1, h2, h3, h4, fun h => h5.trans ?_, fun h => h5.trans ?_⟩
  · dsimp only
    rw [if_neg]
    obtain ⟨c, hc, r, hr⟩ := h
    intro he
    have := List.filterMap_eq_nil_iff.1 he c hc
    rw [hr] at this
    cases this
  · dsimp only
    rw [if_pos]
    rw [List.filterMap_eq_nil_iff]
    intro c hc
    rcases hs c with ⟨r, hr⟩ | hr
    · exact absurd ⟨c, hc, r, hr⟩ h
    · rw [hr]; rfl

/-- C27 (stopping at failures): either every combination is solved, and the results are theirs in order, or the sweep stops at the first
one that is not, raising RuntimeWarning if it is infeasible and else the exception of the solve. Partial as `C27_skip_partial`. -/
theorem C27_halt_partial (solve : PyDict S K → Except Err R) {base : PyDict S K} {sweep : List (S × List K)} {linked : List (S × Fn S K)}
    (ok : Ok base sweep linked) (hne : ∀ vl ∈ sweep, vl.2 ≠ []) :
    ∃ pts cs, pts.Perm (combos sweep) ∧ List.Forall₂ (Right base linked) pts cs ∧
      ((∃ rs, List.Forall₂ (fun c r => solve c = .ok r) cs rs ∧ (runSweep solve false base sweep linked).1.built = cs ∧
          (runSweep solve false base sweep linked).1.results = rs ∧ (runSweep solve false base sweep linked).2 = .ok ()) ∨
        ∃ pre c post rs e, cs = pre ++ c :: post ∧ List.Forall₂ (fun c r => solve c = .ok r) pre rs ∧ solve c = .error e ∧
          (runSweep solve false base sweep linked).1.built = pre ++ [c] ∧ (runSweep solve false base sweep linked).1.results = rs ∧
          (runSweep solve false base sweep linked).2 = .error (if e = .primalInfeasible then .runtimeWarning else e)) := by
  obtain ⟨pts, cs, h1, h2, h3, h4, h5⟩ := sweep_report solve false ok
  refine ⟨pts, cs, h1, h2, ?_⟩
  rcases report_halt solve cs with ⟨rs, g1, g2⟩ | ⟨pre, c, post, rs, e, g1, g2, g3, g4⟩
  · rw [g2] at h3 h4 h5
    refine Or.inl ⟨rs, g1, h3, h4, h5.trans ?_⟩
    dsimp only
    rw [if_neg]
    intro he
    have l1 := h1.length_eq
    have l2 := h2.length_eq
    have l3 := g1.length_eq
    rw [he] at l3
    have : (combos sweep).length = size (sweep.map (·.2)) := by rw [combos_zip, List.length_map, product_length]
    have hz : size (sweep.map (·.2)) = 0 := by rw [← this, ← l1, l2, l3]; rfl
    unfold size at hz
    rw [List.prod_eq_zero_iff] at hz
    simp only [List.map_map, List.mem_map, Function.comp] at hz
    obtain ⟨vl, hvl, hl⟩ := hz
    exact hne vl hvl (List.length_eq_zero_iff.1 hl)
  · rw [g4] at h3 h4 h5
    exact Or.inr ⟨pre, c, post, rs, e, g1, g2, g3, h3, h4, h5⟩

/-- C27 (collection): a constant reduced to one value had this value in every pass; swept variables keep all their values. -/
theorem C27_collect {base : PyDict S K} [DecidableEq K] {sweep : List (S × List K)} {linked : List (S × Fn S K)} {pts : List (List (S × K))}
    {cs : List (PyDict S K)} (hp : pts.Perm (combos sweep)) (hr : List.Forall₂ (Right base linked) pts cs) (v : S) (vals : List K)
    (hv : cs.map (·.get? v) = vals.map some) :
    collapse (decide (v ∈ sweep.map (·.1))) (decide (v ∈ linked.map (·.1))) vals = vals ∨
      ∃ k, collapse (decide (v ∈ sweep.map (·.1))) (decide (v ∈ linked.map (·.1))) vals = [k] ∧ ∀ c ∈ cs, c.get? v = some k := by
  unfold collapse
  by_cases h1 : v ∈ sweep.map (·.1)
  · left; simp [h1]
  · rw [decide_eq_false h1]
    cases vals with
    | nil => left; rfl
    | cons k ks =>
      dsimp only
      by_cases h2 : v ∈ linked.map (·.1)
      · rw [decide_eq_true h2, Bool.true_and]
        by_cases h3 : ks.any (fun l => l ≠ k) = true
        · left; rw [if_neg (by simp), if_pos h3]
        · right
          refine ⟨k, by simp only [if_neg h3]; rfl, ?_⟩
          intro c hc
          have : c.get? v ∈ cs.map (·.get? v) := List.mem_map_of_mem hc
          rw [hv, List.map_cons, List.mem_cons] at this
          rcases this with h | h
          · exact h
          · obtain ⟨l, hl, e⟩ := List.mem_map.1 h
            rw [List.any_eq_true] at h3
            have : l = k := by
              by_contra hne
              exact h3 ⟨l, hl, by simpa using hne⟩
            rw [← e, this]
      · right
        rw [decide_eq_false h2]
        refine ⟨k, rfl, ?_⟩
        have hall : ∀ c ∈ cs, c.get? v = base.get? v := by
          intro c hc
          obtain ⟨i, hi⟩ := List.mem_iff_getElem?.1 hc
          obtain ⟨hil, hie⟩ := List.getElem?_eq_some_iff.1 hi
          have hpl : i < pts.length := by rw [hr.length_eq]; exact hil
          have hR := (List.forall₂_iff_get.1 hr).2 i hpl hil
          simp only [List.get_eq_getElem, hie] at hR
          refine hR.other v ?_ h2
          rw [combo_vars sweep _ (hp.mem_iff.1 (List.getElem_mem hpl))]
          exact h1
        cases cs with
        | nil => cases hv
        | cons c0 cs =>
          rw [List.map_cons, List.map_cons, List.cons.injEq] at hv
          intro c hc
          rw [hall c hc, ← hall c0 (by simp)]
          exact hv.1

namespace Sweep

/-- A function that multiplies a constant. -/
def times (n : Nat) (v : String) : Fn String Nat := fun c => match c.get? v with | some k => .ok (n * k) | none => .error .keyError

/-- `Model` with constant `p = 7`, swept `x` and `y`, linked `a = 2 x`. -/
def exBase : PyDict String Nat := [("p", 7)]
def exSweep : List (String × List Nat) := [("x", [1, 2]), ("y", [5, 6, 7])]
def exLinked : List (String × Fn String Nat) := [("a", times 2 "x")]

theorem ex_ok : Ok exBase exSweep exLinked where
  sweepVars := by decide
  linkVars := by decide
  apart := by decide
  unchained := by
    intro vf h c c' hc
    simp only [exLinked, List.mem_singleton] at h
    subst h
    have := hc "x" (by decide)
    simp only [times, this]
  defined := by
    intro vf h c hc
    simp only [exLinked, List.mem_singleton] at h
    subst h
    obtain ⟨k, hk⟩ := contains_iff.1 (hc "x" (Or.inr (by decide)))
    exact ⟨2 * k, by simp only [times, hk]⟩

/-- Solving: programs where `a` is 4 and `y` is 6 are infeasible. -/
def exSolve (c : PyDict String Nat) : Except Err (Option Nat) :=
  if c.get? "a" = some 4 ∧ c.get? "y" = some 6 then .error .primalInfeasible else .ok (c.get? "y")

/-- The theorems apply. -/
example :=
  C27_skip_partial exSolve ex_ok (fun c => by
    unfold exSolve
    split
    · exact Or.inr rfl
    · exact Or.inl ⟨_, rfl⟩)

/-- Six programs, five results. -/
example : (runSweep exSolve true exBase exSweep exLinked).1.built.length = 6 ∧
    (runSweep exSolve true exBase exSweep exLinked).1.results = [some 5, some 5, some 6, some 7, some 7] := by
  decide +kernel

/-- Linked functions that look at each other: `a = 2 x` and `b = 3 a`. -/
def chained : List (String × Fn String Nat) := [("a", times 2 "x"), ("b", times 3 "a")]

end Sweep

/-- C27 is violated where a linked function looks at a linked variable: with `a = 2 x` and `b = 3 a`, sweeping `x` over 1 and 2, the second
program is made with `b = 6`, from the `a` of the first. -/
theorem C27_linked_fails :
    let s := (runSweep (fun c => Except.ok (c.get? "b")) true ([] : PyDict String Nat) [("x", [1, 2])] Sweep.chained).1
    s.built.map (fun c => (c.get? "x", c.get? "a", c.get? "b")) = [(some 1, some 2, some 6), (some 2, some 4, some 6)] ∧
      s.results = [some 6, some 6] := by
  decide +kernel

/-- C27 is violated for saved programs: they all refer to one dict of constants, so that after a sweep of `x` over 1 and 2 the first says
`x = 2`, although it was made with `x = 1`. -/
theorem C27_programs_fails :
    let s := (runSweep (fun c => Except.ok (c.get? "x")) true ([] : PyDict String Nat) [("x", [1, 2])] []).1
    (s.built.map (fun c => c.get? "x")) = [some 1, some 2] ∧ (programConstants s 0).get? "x" = some 2 := by
  decide +kernel

end Verif
