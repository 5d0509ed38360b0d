import Verif.Spec.Autosweep
import Verif.Lemmas.PyDict
import Mathlib.Data.List.Perm.Basic
import Mathlib.Algebra.Order.Field.Basic
import Mathlib.Data.List.Induction

/-! C28 and C30: sweeps that change a model's substitutions, and autosweep trees. -/

set_option linter.unusedSectionVars false

namespace Verif
open PyDict
namespace Auto

/-! ## Dicts -/

section
variable {S B : Type} [DecidableEq S]

theorem set_set (d : PyDict S B) (k : S) (a b : B) : PyDict.set (PyDict.set d k a) k b = PyDict.set d k b := by
  induction d with
  | nil => simp [PyDict.set]
  | cons p d ih =>
    obtain ⟨k', v'⟩ := p
    rw [set_cons, set_cons]
    by_cases h : (k' == k) = true
    · rw [if_pos h, if_pos h, set_cons, if_pos h]
    · rw [if_neg h, if_neg h, set_cons, if_neg h, ih]

theorem set_get (d : PyDict S B) (k : S) (a : B) (h : PyDict.get? d k = some a) : PyDict.set d k a = d := by
  induction d with
  | nil => cases h
  | cons p d ih =>
    obtain ⟨k', v'⟩ := p
    rw [get?_cons] at h
    rw [set_cons]
    by_cases hk : (k' == k) = true
    · rw [if_pos hk] at h ⊢
      cases h; rfl
    · rw [if_neg hk] at h ⊢
      rw [ih h]

theorem del_set (d : PyDict S B) (k : S) (a : B) (h : PyDict.get? d k = none) : PyDict.del (PyDict.set d k a) k = d := by
  induction d with
  | nil => simp [PyDict.set, PyDict.del]
  | cons p d ih =>
    obtain ⟨k', v'⟩ := p
    rw [get?_cons] at h
    rw [set_cons]
    by_cases hk : (k' == k) = true
    · rw [if_pos hk] at h; cases h
    · rw [if_neg hk] at h ⊢
      rw [del_cons, if_neg hk, ih h]

end

section
variable {S K F R Sol : Type} [DecidableEq S] [Field K] [LinearOrder K]

theorem Restorable.truth {o : Option (Val K F)} (h : Restorable o) : o = none ∨ truth o = .ok true := by
  match o with
  | none => exact Or.inl rfl
  | some (.num k) => right; have h : k ≠ 0 := h; simp only [Auto.truth]; rw [decide_eq_true h]
  | some .nan => exact Or.inr rfl
  | some (.fn _) => exact Or.inr rfl
  | some (.sweep _) => exact Or.inr rfl
  | some (.arr []) => exact h.elim
  | some (.arr [k]) => right; have h : k ≠ 0 := h; simp only [Auto.truth]; rw [decide_eq_true h]
  | some (.arr (_ :: _ :: _)) => exact h.elim

theorem restore_eq {subs : PyDict S (Val K F)} {v : S} (h : Restorable (subs.get? v)) (w : Val K F) :
    restore (subs.set v w) v (subs.get? v) = (subs, .ok ()) := by
  unfold restore
  cases ho : subs.get? v with
  | none => simp only [truth]; rw [del_set _ _ _ ho]
  | some o =>
    rcases h.truth with h | h
    · rw [ho] at h; cases h
    · rw [ho] at h
      rw [h]
      dsimp only
      rw [set_set, set_get _ _ _ ho]

theorem sweepLoop_same (solve localsolve : PyDict S (Val K F) → Except Err R) (sweeps : List (S × List K)) (subs : PyDict S (Val K F))
    (hr : ∀ vl ∈ sweeps, Restorable (subs.get? vl.1)) :
    (∀ rs, (sweepLoop solve localsolve sweeps subs).2 = .ok rs →
      (sweepLoop solve localsolve sweeps subs).1 = subs ∧
        List.Forall₂ (fun vl r => solve (subs.set vl.1 (.sweep vl.2)) = .ok r ∨
          (solve (subs.set vl.1 (.sweep vl.2)) = .error .invalidGPConstraint ∧ localsolve (subs.set vl.1 (.sweep vl.2)) = .ok r)) sweeps rs) := by
  induction sweeps with
  | nil => intro rs h; simp only [sweepLoop, Except.ok.injEq] at h; subst h; exact ⟨rfl, .nil⟩
  | cons vl l ih =>
    obtain ⟨v, vs⟩ := vl
    have ih := ih (fun vl h => hr vl (by simp [h]))
    intro rs h
    unfold sweepLoop at h ⊢
    dsimp only at h ⊢
    have hr0 := restore_eq (hr (v, vs) (by simp)) (Val.sweep vs)
    dsimp only at hr0
    cases hoo : solveOr solve localsolve (subs.set v (.sweep vs)) with
    | error e => rw [hoo] at h; cases h
    | ok r =>
      rw [hoo] at h
      dsimp only at h ⊢
      rw [hr0] at h ⊢
      dsimp only at h ⊢
      generalize hq : sweepLoop solve localsolve l subs = q at h ih ⊢
      obtain ⟨s, e⟩ := q
      cases e with
      | error e => cases h
      | ok rs' =>
        simp only [Except.ok.injEq] at h
        subst h
        obtain ⟨i1, i2⟩ := ih rs' rfl
        refine ⟨i1, .cons ?_ i2⟩
        unfold solveOr at hoo
        dsimp only
        cases hs : solve (subs.set v (.sweep vs)) with
        | ok r' => rw [hs] at hoo; left; exact hoo
        | error e =>
          right
          rw [hs] at hoo
          cases e <;> first | exact ⟨rfl, hoo⟩ | cases hoo

end

/-! ## Trees -/

section
variable {K Sol : Type} [Zero K] [LinearOrder K]

/-- Parts fit together. -/
inductive Tree.WF : Tree K Sol → Prop
  | fresh {lo hi s0 s1} : lo < hi → WF (.fresh lo hi s0 s1)
  | costed {lo hi s0 s1 x lb ub} : lo < hi → x ≠ 0 → WF (.costed lo hi s0 s1 x lb ub)
  | split {lo hi s0 s1 x l r} : WF l → WF r → l.lo = lo → l.hi = x → r.lo = x → r.hi = hi → l.s0 = s0 → r.s1 = s1 → l.s1 = r.s0 → x ≠ 0 →
    WF (.split lo hi s0 s1 x l r)

/-- What lies strictly inside. -/
def Tree.mid : Tree K Sol → List (K × Sol)
  | .split _ _ _ _ x l r => l.mid ++ (x, l.s1) :: r.mid
  | _ => []

/-- All solutions with their places. -/
def Tree.pts (t : Tree K Sol) : List (K × Sol) := (t.lo, t.s0) :: (t.mid ++ [(t.hi, t.s1)])

theorem Tree.pts_split (lo hi : K) (s0 s1 : Sol) (x : K) (l r : Tree K Sol) :
    (Tree.split lo hi s0 s1 x l r).pts = (lo, s0) :: (l.mid ++ (x, l.s1) :: (r.mid ++ [(hi, s1)])) := by
  show (lo, s0) :: ((l.mid ++ (x, l.s1) :: r.mid) ++ [(hi, s1)]) = _
  rw [List.append_assoc, List.cons_append]

theorem Tree.mem_pts {p : K × Sol} {t : Tree K Sol} : p ∈ t.pts ↔ p = (t.lo, t.s0) ∨ p ∈ t.mid ∨ p = (t.hi, t.s1) := by
  unfold Tree.pts
  rw [List.mem_cons, List.mem_append, List.mem_singleton]

theorem Tree.WF.lt {t : Tree K Sol} (h : t.WF) : t.lo < t.hi := by
  induction h with
  | fresh h => exact h
  | costed h _ => exact h
  | split _ _ h1 h2 h3 h4 _ _ _ _ i1 i2 => 
    simp only [Tree.lo, Tree.hi]
    rw [← h1, ← h4]
    exact i1.trans (by rw [h2, ← h3]; exact i2)

theorem pairwise_bounds {a b : K} {m : List (K × Sol)} {s0 s1 : Sol} (hm : m.Pairwise (fun p q => p.1 < q.1)) (h : ∀ p ∈ m, a < p.1 ∧ p.1 < b) (hab : a < b) :
    ((a, s0) :: (m ++ [(b, s1)])).Pairwise (fun p q => p.1 < q.1) := by
  rw [List.pairwise_cons, List.pairwise_append]
  refine ⟨?_, hm, by simp, ?_⟩
  · intro p hp
    rcases List.mem_append.1 hp with hp | hp
    · exact (h p hp).1
    · simp only [List.mem_singleton] at hp; subst hp; exact hab
  · intro p hp q hq
    simp only [List.mem_singleton] at hq; subst hq; exact (h p hp).2

theorem Tree.WF.mid {t : Tree K Sol} (h : t.WF) : t.mid.Pairwise (fun p q => p.1 < q.1) ∧ ∀ p ∈ t.mid, t.lo < p.1 ∧ p.1 < t.hi := by
  induction h with
  | fresh h => exact ⟨.nil, fun _ h => (List.not_mem_nil h).elim⟩
  | costed h _ => exact ⟨.nil, fun _ h => (List.not_mem_nil h).elim⟩
  | @split lo hi s0 s1 x l r hl hr h1 h2 h3 h4 _ _ _ _ i1 i2 =>
    have ll := hl.lt
    have lr := hr.lt
    rw [h1, h2] at ll i1
    rw [h3, h4] at lr i2
    simp only [Tree.mid, Tree.lo, Tree.hi]
    refine ⟨?_, ?_⟩
    · rw [List.pairwise_append, List.pairwise_cons]
      refine ⟨i1.1, ⟨fun p hp => (i2.2 p hp).1, i2.1⟩, ?_⟩
      intro p hp q hq
      rcases List.mem_cons.1 hq with rfl | hq
      · exact (i1.2 p hp).2
      · exact (i1.2 p hp).2.trans (i2.2 q hq).1
    · intro p hp
      rcases List.mem_append.1 hp with hp | hp
      · exact ⟨(i1.2 p hp).1, (i1.2 p hp).2.trans lr⟩
      · rcases List.mem_cons.1 hp with rfl | hp
        · exact ⟨ll, lr⟩
        · exact ⟨ll.trans (i2.2 p hp).1, (i2.2 p hp).2⟩

theorem Tree.WF.pts {t : Tree K Sol} (h : t.WF) : t.pts.Pairwise (fun p q => p.1 < q.1) := pairwise_bounds h.mid.1 h.mid.2 h.lt

theorem Tree.WF.sollist {t : Tree K Sol} (h : t.WF) : t.sollist = t.pts.map (·.2) := by
  induction h with
  | fresh h => rfl
  | costed h _ => rfl
  | split hl hr h1 h2 h3 h4 h5 h6 h7 _ i1 i2 =>
    rw [Tree.pts_split]
    unfold Tree.sollist
    rw [i1, i2]
    unfold Tree.pts
    simp only [List.map_cons, List.map_append, List.tail_cons, List.map_nil, List.dropLast_concat, List.append_assoc, List.cons_append,
      List.nil_append]

theorem Tree.WF.minBst {t : Tree K Sol} (h : t.WF) (v : K) (h0 : t.lo ≤ v) (h1 : v ≤ t.hi) :
    (t.minBst v).lo ≤ v ∧ v ≤ (t.minBst v).hi ∧ ((t.minBst v).lo, (t.minBst v).s0) ∈ t.pts ∧ ((t.minBst v).hi, (t.minBst v).s1) ∈ t.pts ∧
      (∀ p ∈ t.pts, p.1 ≤ (t.minBst v).lo ∨ (t.minBst v).hi ≤ p.1) ∧ t.minBst v ∈ t.leaves := by
  induction h with
  | fresh h => simp_all [Tree.minBst, Tree.lo, Tree.hi, Tree.s0, Tree.s1, Tree.pts, Tree.mid, Tree.leaves]
  | costed h _ => simp_all [Tree.minBst, Tree.lo, Tree.hi, Tree.s0, Tree.s1, Tree.pts, Tree.mid, Tree.leaves]
  | @split lo hi s0 s1 x l r hl hr e1 e2 e3 e4 e5 e6 e7 _ i1 i2 =>
    simp only [Tree.lo, Tree.hi] at h0 h1
    have lp := hl.mid.2
    have rp := hr.mid.2
    have hin : ∀ p, p ∈ (Tree.split lo hi s0 s1 x l r).pts ↔ p ∈ l.pts ∨ p ∈ r.pts := by
      intro p
      rw [Tree.pts_split, Tree.mem_pts, Tree.mem_pts, e1, e2, e3, e4, e5, e6, ← e7]
      simp only [List.mem_cons, List.mem_append, List.not_mem_nil, or_false]
      constructor
      · rintro (h | h | h | h | h)
        · exact Or.inl (Or.inl h)
        · exact Or.inl (Or.inr (Or.inl h))
        · exact Or.inl (Or.inr (Or.inr h))
        · exact Or.inr (Or.inr (Or.inl h))
        · exact Or.inr (Or.inr (Or.inr h))
      · rintro ((h | h | h) | h | h | h)
        · exact Or.inl h
        · exact Or.inr (Or.inl h)
        · exact Or.inr (Or.inr (Or.inl h))
        · exact Or.inr (Or.inr (Or.inl h))
        · exact Or.inr (Or.inr (Or.inr (Or.inl h)))
        · exact Or.inr (Or.inr (Or.inr (Or.inr h)))
    have hlp : ∀ p ∈ l.pts, p.1 ≤ x := by
      intro p hp
      rw [Tree.mem_pts] at hp
      have := hl.lt
      rcases hp with rfl | hp | rfl
      · rw [← e2]; exact this.le
      · rw [← e2]; exact (lp p hp).2.le
      · rw [← e2]
    have hrp : ∀ p ∈ r.pts, x ≤ p.1 := by
      intro p hp
      rw [Tree.mem_pts] at hp
      have := hr.lt
      rcases hp with rfl | hp | rfl
      · rw [← e3]
      · rw [← e3]; exact (rp p hp).1.le
      · rw [← e3]; exact this.le
    unfold Tree.minBst Tree.leaves
    by_cases hv : v ≤ x
    · rw [if_pos hv]
      obtain ⟨a1, a2, a3, a4, a5, a6⟩ := i1 (by rw [e1]; exact h0) (by rw [e2]; exact hv)
      refine ⟨a1, a2, (hin _).2 (Or.inl a3), (hin _).2 (Or.inl a4), ?_, List.mem_append_left _ a6⟩
      intro p hp
      rcases (hin p).1 hp with hp | hp
      · exact a5 p hp
      · exact Or.inr ((hlp _ a4).trans (hrp p hp))
    · rw [if_neg hv]
      obtain ⟨a1, a2, a3, a4, a5, a6⟩ := i2 (by rw [e3]; exact (not_le.1 hv).le) (by rw [e4]; exact h1)
      refine ⟨a1, a2, (hin _).2 (Or.inr a3), (hin _).2 (Or.inr a4), ?_, List.mem_append_right _ a6⟩
      intro p hp
      rcases (hin p).1 hp with hp | hp
      · exact Or.inl ((hlp p hp).trans (hrp _ a3))
      · exact a5 p hp

theorem make_ok {lo hi : K} {s0 s1 : Sol} {t : Tree K Sol} (h : Tree.make lo hi s0 s1 = .ok t) : lo < hi ∧ t = .fresh lo hi s0 s1 := by
  unfold Tree.make at h
  by_cases hl : hi ≤ lo
  · rw [if_pos hl] at h; cases h
  · rw [if_neg hl] at h; cases h; exact ⟨not_le.1 hl, rfl⟩

/-- Same ends. -/
def Tree.Ends (t t' : Tree K Sol) : Prop := t'.lo = t.lo ∧ t'.hi = t.hi ∧ t'.s0 = t.s0 ∧ t'.s1 = t.s1

theorem addSplit_ok {t t' : Tree K Sol} {x : K} {sol : Sol} (h : t.WF) (h0 : 0 < t.lo) (he : t.addSplit x sol = .ok t') :
    t'.WF ∧ t.Ends t' ∧ t.mid = [] ∧ t'.mid = [(x, sol)] ∧
      t' = .split t.lo t.hi t.s0 t.s1 x (.fresh t.lo x t.s0 sol) (.fresh x t.hi sol t.s1) ∧ t.lo < x ∧ x < t.hi := by
  unfold Tree.addSplit at he
  by_cases h1 : t.hasSplitval = true
  · rw [if_pos h1] at he; cases he
  · rw [if_neg h1] at he
    by_cases h2 : x ≤ t.lo ∨ t.hi ≤ x
    · rw [if_pos h2] at he; cases he
    · rw [if_neg h2] at he
      rw [not_or, not_le, not_le] at h2
      have m1 : Tree.make t.lo x t.s0 sol = .ok (.fresh t.lo x t.s0 sol) := by unfold Tree.make; rw [if_neg (not_le.2 h2.1)]
      have m2 : Tree.make x t.hi sol t.s1 = .ok (.fresh x t.hi sol t.s1) := by unfold Tree.make; rw [if_neg (not_le.2 h2.2)]
      rw [m1, m2] at he
      have he : Except.ok (Tree.split t.lo t.hi t.s0 t.s1 x (.fresh t.lo x t.s0 sol) (.fresh x t.hi sol t.s1)) = Except.ok (ε := Err) t' := he
      rw [Except.ok.injEq] at he
      subst he
      refine ⟨.split (.fresh h2.1) (.fresh h2.2) rfl rfl rfl rfl rfl rfl rfl (h0.trans h2.1).ne', ⟨rfl, rfl, rfl, rfl⟩, ?_, rfl, rfl, h2⟩
      cases h with
      | fresh _ => rfl
      | costed _ _ => rfl
      | split _ _ _ _ _ _ _ _ _ hx => exact absurd (by simpa [Tree.hasSplitval] using hx) h1

theorem addSplitcost_ok {t t' : Tree K Sol} {x lb ub : K} (h : t.WF) (h0 : 0 < t.lo) (he : t.addSplitcost x lb ub = .ok t') :
    t'.WF ∧ t.Ends t' ∧ t.mid = [] ∧ t' = .costed t.lo t.hi t.s0 t.s1 x lb ub ∧ t.lo < x ∧ x < t.hi := by
  unfold Tree.addSplitcost at he
  by_cases h1 : t.hasSplitval = true
  · rw [if_pos h1] at he; cases he
  · rw [if_neg h1] at he
    by_cases h2 : x ≤ t.lo ∨ t.hi ≤ x
    · rw [if_pos h2] at he; cases he
    · rw [if_neg h2] at he
      rw [not_or, not_le, not_le] at h2
      have hlt := h.lt
      cases h with
      | fresh _ => cases he; exact ⟨.costed hlt (h0.trans h2.1).ne', ⟨rfl, rfl, rfl, rfl⟩, rfl, rfl, h2⟩
      | costed _ _ => cases he; exact ⟨.costed hlt (h0.trans h2.1).ne', ⟨rfl, rfl, rfl, rfl⟩, rfl, rfl, h2⟩
      | split _ _ _ _ _ _ _ _ _ hx => exact absurd (by simpa [Tree.hasSplitval] using hx) h1

theorem atPath_ok {f : Tree K Sol → Except Err (Tree K Sol)} {added : List (K × Sol)}
    (hf : ∀ t t', t.WF → 0 < t.lo → f t = .ok t' → t'.WF ∧ t.Ends t' ∧ t'.mid.Perm (t.mid ++ added)) (p : List Bool) :
    ∀ t t' : Tree K Sol, t.WF → 0 < t.lo → atPath f p t = .ok t' → t'.WF ∧ t.Ends t' ∧ t'.mid.Perm (t.mid ++ added) := by
  induction p with
  | nil => intro t t' h h0 he; exact hf t t' h h0 he
  | cons b p ih =>
    intro t t' h h0 he
    cases h with
    | fresh _ => cases b <;> cases he
    | costed _ _ => cases b <;> cases he
    | @split lo hi s0 s1 x l r hl hr e1 e2 e3 e4 e5 e6 e7 hx =>
      have hx0 : 0 < x := by rw [← e2]; rw [← e1] at h0; exact h0.trans hl.lt
      cases b with
      | false =>
        unfold atPath at he
        cases hl' : atPath f p l with
        | error e => rw [hl'] at he; cases he
        | ok l' =>
          rw [hl'] at he
          cases he
          obtain ⟨i1, ⟨j1, j2, j3, j4⟩, i3⟩ := ih l l' hl (by rw [e1]; exact h0) hl'
          refine ⟨.split i1 hr (j1.trans e1) (j2.trans e2) e3 e4 (j3.trans e5) e6 (j4.trans e7) hx, ⟨rfl, rfl, rfl, rfl⟩, ?_⟩
          simp only [Tree.mid]
          rw [j4]
          refine (i3.append_right _).trans ?_
          rw [List.append_assoc, List.append_assoc]
          exact List.Perm.append_left _ List.perm_append_comm
      | true =>
        unfold atPath at he
        cases hr' : atPath f p r with
        | error e => rw [hr'] at he; cases he
        | ok r' =>
          rw [hr'] at he
          cases he
          obtain ⟨i1, ⟨j1, j2, j3, j4⟩, i3⟩ := ih r r' hr (by rw [e3]; exact hx0) hr'
          refine ⟨.split hl i1 e1 e2 (j1.trans e3) (j2.trans e4) e5 (j4.trans e6) (e7.trans j3.symm) hx, ⟨rfl, rfl, rfl, rfl⟩, ?_⟩
          simp only [Tree.mid]
          rw [List.append_assoc, List.cons_append]
          exact List.Perm.append_left _ (i3.cons _)

theorem run_ok (o : Op K Sol) {t : Tree K Sol} (h : t.WF) (h0 : 0 < t.lo) :
    (o.run t).1.WF ∧ t.Ends (o.run t).1 ∧ (o.run t).1.mid.Perm (t.mid ++ (o.run t).2) := by
  cases o with
  | split p x sol =>
    unfold Op.run
    dsimp only
    cases he : atPath (fun t => t.addSplit x sol) p t with
    | error e => exact ⟨h, ⟨rfl, rfl, rfl, rfl⟩, by simp⟩
    | ok t' =>
      refine atPath_ok (added := [(x, sol)]) ?_ p t t' h h0 he
      intro u u' hu hu0 heu
      obtain ⟨a1, a2, a3, a4, _⟩ := addSplit_ok hu hu0 heu
      exact ⟨a1, a2, by rw [a3, a4]; rfl⟩
  | cost p x lb ub =>
    unfold Op.run
    dsimp only
    cases he : atPath (fun t => t.addSplitcost x lb ub) p t with
    | error e => exact ⟨h, ⟨rfl, rfl, rfl, rfl⟩, by simp⟩
    | ok t' =>
      refine atPath_ok (added := []) ?_ p t t' h h0 he
      intro u u' hu hu0 heu
      obtain ⟨a1, a2, a3, a4, _⟩ := addSplitcost_ok hu hu0 heu
      exact ⟨a1, a2, by rw [a3, a4]; rfl⟩

theorem runOps_ok (os : List (Op K Sol)) : ∀ {t : Tree K Sol}, t.WF → 0 < t.lo →
    (runOps os t).1.WF ∧ t.Ends (runOps os t).1 ∧ (runOps os t).1.mid.Perm (t.mid ++ (runOps os t).2) := by
  induction os with
  | nil => intro t h _; exact ⟨h, ⟨rfl, rfl, rfl, rfl⟩, by simp [runOps]⟩
  | cons o os ih =>
    intro t h h0
    obtain ⟨a1, ⟨b1, b2, b3, b4⟩, a3⟩ := run_ok o h h0
    obtain ⟨c1, ⟨d1, d2, d3, d4⟩, c3⟩ := ih a1 (by rw [b1]; exact h0)
    unfold runOps
    refine ⟨c1, ⟨d1.trans b1, d2.trans b2, d3.trans b3, d4.trans b4⟩, c3.trans ?_⟩
    dsimp only
    rw [← List.append_assoc]
    exact a3.append_right _

end

/-! ## Autosweeps -/

section
variable {S K F Sol : Type} [DecidableEq S] [Field K] [LinearOrder K]

theorem recurse_ok (solve : PyDict S (Val K F) → Except Err Sol) (getTol : K → K → Sol → Sol → K × K × K) (v : S) (logtol : K)
    (base : PyDict S (Val K F)) (depth : Nat) : ∀ (t : Tree K Sol) (s s' : AS S K F) (t' : Tree K Sol) (tol : K), t.WF → 0 < t.lo → t.mid = [] →
      (∃ w, s.subs = base.set v w) → recurse solve getTol v logtol depth t s = (s', .ok (t', tol)) →
      t'.WF ∧ t.Ends t' ∧ (∀ u ∈ t'.leaves, ∃ k, Within getTol logtol u k ∧ k ≤ tol) ∧ (∃ u ∈ t'.leaves, Within getTol logtol u tol) ∧
        (∀ p ∈ t'.mid, solve (base.set v (.num p.1)) = .ok p.2) ∧ s'.count = s.count + t'.mid.length ∧
        (∃ w, s'.subs = base.set v w) := by
  induction depth with
  | zero => intro t s s' t' tol _ _ _ _ h; simp [recurse] at h
  | succ depth ih =>
    intro t s s' t' tol hw h0 hm hs h
    unfold recurse at h
    generalize hg : getTol t.lo t.hi t.s0 t.s1 = g at h
    obtain ⟨x, lb, ub⟩ := g
    dsimp only at h
    by_cases hl : logtol ≤ (ub - lb) / 2
    · rw [if_pos hl] at h
      cases hsol : solve (s.subs.set v (.num x)) with
      | error e => rw [hsol] at h; cases h
      | ok sol =>
        rw [hsol] at h
        dsimp only at h
        cases hadd : t.addSplit x sol with
        | error e => rw [hadd] at h; cases h
        | ok u =>
          obtain ⟨_, _, _, _, rfl, x1, x2⟩ := addSplit_ok hw h0 hadd
          rw [hadd] at h
          dsimp only at h
          generalize hq1 : recurse solve getTol v logtol depth (.fresh t.lo x t.s0 sol) ⟨s.subs.set v (.num x), s.count + 1⟩ = q1 at h
          obtain ⟨sa, oa⟩ := q1
          cases oa with
          | error e => cases h
          | ok la =>
            obtain ⟨l, tl⟩ := la
            dsimp only at h
            obtain ⟨a1, ⟨a2, a3, a4, a5⟩, a6, a7, a8, a9, a10⟩ := ih _ _ _ _ _ (.fresh x1) h0 rfl (by
              obtain ⟨w, hw⟩ := hs
              exact ⟨.num x, by dsimp only; rw [hw, set_set]⟩) hq1
            generalize hq2 : recurse solve getTol v logtol depth (.fresh x t.hi sol t.s1) sa = q2 at h
            obtain ⟨sb, ob⟩ := q2
            cases ob with
            | error e => cases h
            | ok lb' =>
              obtain ⟨r, tr⟩ := lb'
              dsimp only at h
              obtain ⟨b1, ⟨b2, b3, b4, b5⟩, b6, b7, b8, b9, b10⟩ := ih _ _ _ _ _ (.fresh x2) (h0.trans x1) rfl a10 hq2
              simp only [Prod.mk.injEq, Except.ok.injEq] at h
              obtain ⟨rfl, rfl, rfl⟩ := h
              refine ⟨.split a1 b1 a2 a3 b2 b3 a4 b5 (a5.trans b4.symm) (h0.trans x1).ne', ⟨rfl, rfl, rfl, rfl⟩, ?_, ?_, ?_, ?_, b10⟩
              · intro u hu
                rcases List.mem_append.1 hu with hu | hu
                · obtain ⟨k, k1, k2⟩ := a6 u hu
                  exact ⟨k, k1, k2.trans (le_max_left _ _)⟩
                · obtain ⟨k, k1, k2⟩ := b6 u hu
                  exact ⟨k, k1, k2.trans (le_max_right _ _)⟩
              · rcases max_choice tl tr with hmx | hmx
                · rw [hmx]
                  obtain ⟨u, hu, hk⟩ := a7
                  exact ⟨u, List.mem_append_left _ hu, hk⟩
                · rw [hmx]
                  obtain ⟨u, hu, hk⟩ := b7
                  exact ⟨u, List.mem_append_right _ hu, hk⟩
              · intro p hp
                rcases List.mem_append.1 hp with hp | hp
                · exact a8 p hp
                · rcases List.mem_cons.1 hp with rfl | hp
                  · obtain ⟨w, hw⟩ := hs
                    rw [hw, set_set] at hsol
                    dsimp only
                    rw [a5]
                    exact hsol
                  · exact b8 p hp
              · rw [b9, a9]
                simp only [Tree.mid, List.length_append, List.length_cons]
                omega
    · rw [if_neg hl] at h
      cases hadd : t.addSplitcost x lb ub with
      | error e => rw [hadd] at h; cases h
      | ok u =>
        obtain ⟨c1, c2, c3, rfl, c5, c6⟩ := addSplitcost_ok hw h0 hadd
        rw [hadd] at h
        simp only [Prod.mk.injEq, Except.ok.injEq] at h
        obtain ⟨rfl, rfl, rfl⟩ := h
        have hwi : Within getTol logtol (.costed t.lo t.hi t.s0 t.s1 x lb ub) ((ub - lb) / 2) :=
          ⟨_, _, _, _, _, _, _, rfl, hg, rfl, not_le.1 hl⟩
        refine ⟨c1, c2, ?_, ⟨_, List.mem_singleton_self _, hwi⟩, fun _ h => (List.not_mem_nil h).elim, rfl, hs⟩
        intro u hu
        simp only [Tree.leaves, List.mem_singleton] at hu
        subst hu
        exact ⟨_, hwi, le_refl _⟩

theorem firstSols_ok (solve : PyDict S (Val K F) → Except Err Sol) (v : S) (lo hi : K) (subs : PyDict S (Val K F)) {s' : AS S K F} {sols : List Sol}
    (h : firstSols solve v [lo, hi] ⟨subs, 0⟩ = (s', .ok sols)) :
    ∃ s0 s1, sols = [s0, s1] ∧ solve (subs.set v (.num lo)) = .ok s0 ∧ solve (subs.set v (.num hi)) = .ok s1 ∧ s' = ⟨subs.set v (.num hi), 2⟩ := by
  unfold firstSols at h
  dsimp only at h
  cases h0 : solve (subs.set v (.num lo)) with
  | error e => rw [h0] at h; cases h
  | ok s0 =>
    rw [h0] at h
    unfold firstSols at h
    dsimp only at h
    rw [set_set] at h
    cases h1 : solve (subs.set v (.num hi)) with
    | error e => rw [h1] at h; cases h
    | ok s1 =>
      rw [h1] at h
      simp only [firstSols, Prod.mk.injEq, Except.ok.injEq] at h
      exact ⟨s0, s1, h.2.symm, rfl, rfl, h.1.symm⟩

/-- Everything about an autosweep that ends well. -/
theorem autosweep_ok (solve : PyDict S (Val K F) → Except Err Sol) (getTol : K → K → Sol → Sol → K × K × K) (depth : Nat) (logtol : K) (v : S)
    {lo hi : K} (h0 : 0 < lo) (subs : PyDict S (Val K F)) {s' : AS S K F} {t : Tree K Sol} {n : Nat} {tol : K}
    (h : autosweep solve getTol depth logtol v lo hi subs = (s', .ok (t, n, tol))) :
    t.WF ∧ t.lo = lo ∧ t.hi = hi ∧ (∀ p ∈ t.pts, solve (subs.set v (.num p.1)) = .ok p.2) ∧ n = t.pts.length ∧
      (∀ u ∈ t.leaves, ∃ k, Within getTol logtol u k ∧ k ≤ tol) ∧ (∃ u ∈ t.leaves, Within getTol logtol u tol) ∧
      ∃ w, restore (subs.set v w) v (subs.get? v) = (s'.subs, .ok ()) := by
  unfold autosweep at h
  dsimp only at h
  generalize hq : firstSols solve v [lo, hi] ⟨subs, 0⟩ = q at h
  obtain ⟨s, o⟩ := q
  cases o with
  | error e => cases h
  | ok sols =>
    obtain ⟨s0, s1, rfl, f0, f1, rfl⟩ := firstSols_ok solve v lo hi subs hq
    dsimp only at h
    cases hm : Tree.make lo hi s0 s1 with
    | error e => rw [hm] at h; cases h
    | ok t0 =>
      obtain ⟨hlt, rfl⟩ := make_ok hm
      rw [hm] at h
      dsimp only at h
      generalize hr : recurse solve getTol v logtol depth (.fresh lo hi s0 s1) ⟨subs.set v (.num hi), 2⟩ = r at h
      obtain ⟨s2, o2⟩ := r
      cases o2 with
      | error e => cases h
      | ok tt =>
        obtain ⟨t2, tol2⟩ := tt
        obtain ⟨a1, ⟨a2, a3, a4, a5⟩, a6, a7, a8, a9, a10⟩ := recurse_ok solve getTol v logtol subs depth _ _ _ _ _ (.fresh hlt) h0 rfl
          ⟨_, rfl⟩ hr
        dsimp only at h
        generalize hre : restore s2.subs v (subs.get? v) = re at h
        obtain ⟨sb, ob⟩ := re
        cases ob with
        | error e => cases h
        | ok u =>
          cases u
          simp only [Prod.mk.injEq, Except.ok.injEq] at h
          obtain ⟨rfl, rfl, rfl, rfl⟩ := h
          obtain ⟨w, hw⟩ := a10
          rw [hw] at hre
          refine ⟨a1, a2, a3, ?_, ?_, a6, a7, w, hre⟩
          · intro p hp
            rcases Tree.mem_pts.1 hp with rfl | hp | rfl
            · dsimp only; rw [a2, a4]; exact f0
            · exact a8 p hp
            · dsimp only; rw [a3, a5]; exact f1
          · rw [a9]
            simp only [Tree.pts, List.length_cons, List.length_append, List.length_nil]
            omega

end
end Auto

section
open Auto
variable {S K F R Sol : Type} [DecidableEq S] [Field K] [LinearOrder K]

/-- C28 for `Model.sweep`: if it returns, the substitutions are what they were before, and each solution belongs to them with just the one
sweep added. Partial: prior values that are zero or arrays, and failing solves, are excluded (see the witnesses). -/
theorem C28_sweep_partial (solve localsolve : PyDict S (Val K F) → Except Err R) (sweeps : List (S × List K)) (subs : PyDict S (Val K F))
    (hr : ∀ vl ∈ sweeps, Restorable (subs.get? vl.1)) (rs : List R) (h : (modelSweep solve localsolve sweeps subs).2 = .ok rs) :
    (modelSweep solve localsolve sweeps subs).1 = subs ∧
      List.Forall₂ (fun vl r => solve (subs.set vl.1 (.sweep vl.2)) = .ok r ∨
        (solve (subs.set vl.1 (.sweep vl.2)) = .error .invalidGPConstraint ∧ localsolve (subs.set vl.1 (.sweep vl.2)) = .ok r)) sweeps rs := by
  have hsame := sweepLoop_same solve localsolve sweeps subs hr
  unfold modelSweep at h ⊢
  generalize hq : sweepLoop solve localsolve sweeps subs = q at h hsame
  obtain ⟨s, o⟩ := q
  cases o with
  | error e => cases h
  | ok l =>
    cases l with
    | nil => cases h
    | cons a l => exact hsame rs h

/-- C28 for `autosweep`, partial as `C28_sweep_partial`. -/
theorem C28_autosweep_partial (solve : PyDict S (Val K F) → Except Err Sol) (getTol : K → K → Sol → Sol → K × K × K) (depth : Nat) (logtol : K)
    (v : S) {lo hi : K} (h0 : 0 < lo) (subs : PyDict S (Val K F)) (hr : Restorable (subs.get? v)) {t : Tree K Sol} {n : Nat} {tol : K}
    (h : (autosweep solve getTol depth logtol v lo hi subs).2 = .ok (t, n, tol)) :
    (autosweep solve getTol depth logtol v lo hi subs).1.subs = subs := by
  generalize hq : autosweep solve getTol depth logtol v lo hi subs = q at h
  obtain ⟨s, o⟩ := q
  dsimp only at h
  subst h
  obtain ⟨_, _, _, _, _, _, _, w, e⟩ := autosweep_ok solve getTol depth logtol v h0 subs hq
  rw [restore_eq hr w] at e
  exact (congrArg Prod.fst e).symm

/-- C28 is violated when the swept variable was zero: its value is gone afterwards. -/
theorem C28_zero_fails :
    modelSweep (fun _ => .ok ()) (fun _ => .ok ()) [("x", [1, 2])] ([("x", .num 0), ("y", .num 3)] : PyDict String (Val ℚ Unit)) =
      ([("y", .num 3)], .ok [()]) ∧
    (autosweep (fun _ => .ok ()) (fun lo hi _ _ => ((lo + hi) / 2, 0, 0)) 5 1 "x" 1 2
      ([("x", .num 0), ("y", .num 3)] : PyDict String (Val ℚ Unit))).1.subs = [("y", .num 3)] := by
  decide +kernel

/-- C28 is violated when a solve fails: the sweep, or the value last tried, stays in the model. -/
theorem C28_error_fails :
    modelSweep (R := Unit) (fun _ => .error .primalInfeasible) (fun _ => .error .primalInfeasible) [("x", [1, 2])]
      ([("x", .num 7)] : PyDict String (Val ℚ Unit)) = ([("x", .sweep [1, 2])], .error .primalInfeasible) ∧
    (autosweep (Sol := Unit) (fun _ => .error .primalInfeasible) (fun lo hi _ _ => ((lo + hi) / 2, 0, 0)) 5 1 "x" 1 2
      ([("x", .num 7)] : PyDict String (Val ℚ Unit))).1.subs = [("x", .num 1)] := by
  decide +kernel

/-- C28 is violated when the variable had an array: after a successful solve the test of its truth raises, and the sweep stays. -/
theorem C28_array_fails :
    modelSweep (fun _ => .ok ()) (fun _ => .ok ()) [("x", [1, 2])] ([("x", .arr [3, 4])] : PyDict String (Val ℚ Unit)) =
      ([("x", .sweep [1, 2])], .error .valueError) := by
  decide +kernel

/-- C30 (trees): after any uses, the solutions listed are those given, once each, in increasing order of their values; a lookup gives an
interval between two neighbouring solutions that holds the value. -/
theorem C30_tree {lo hi : K} (h0 : 0 < lo) {s0 s1 : Sol} {t : Tree K Sol} (h : Tree.make lo hi s0 s1 = .ok t) (ops : List (Op K Sol)) :
    ∃ pts : List (K × Sol), pts.Perm ((lo, s0) :: (hi, s1) :: (runOps ops t).2) ∧ pts.Pairwise (fun p q => p.1 < q.1) ∧
      (runOps ops t).1.sollist = pts.map (·.2) ∧
      ∀ v, lo ≤ v → v ≤ hi →
        ((runOps ops t).1.minBst v).lo ≤ v ∧ v ≤ ((runOps ops t).1.minBst v).hi ∧
        (((runOps ops t).1.minBst v).lo, ((runOps ops t).1.minBst v).s0) ∈ pts ∧
        (((runOps ops t).1.minBst v).hi, ((runOps ops t).1.minBst v).s1) ∈ pts ∧
        ∀ p ∈ pts, p.1 ≤ ((runOps ops t).1.minBst v).lo ∨ ((runOps ops t).1.minBst v).hi ≤ p.1 := by
  obtain ⟨hlt, rfl⟩ := make_ok h
  obtain ⟨a1, ⟨a2, a3, a4, a5⟩, a6⟩ := runOps_ok ops (.fresh (s0 := s0) (s1 := s1) hlt) h0
  refine ⟨(runOps ops _).1.pts, ?_, a1.pts, a1.sollist, ?_⟩
  · unfold Tree.pts
    rw [a2, a3, a4, a5]
    refine List.Perm.cons _ ?_
    exact List.perm_append_comm.trans (a6.cons _)
  · intro v h1 h2
    obtain ⟨b1, b2, b3, b4, b5, _⟩ := a1.minBst v (by rw [a2]; exact h1) (by rw [a3]; exact h2)
    exact ⟨b1, b2, b3, b4, b5⟩

/-- C30 (autosweeps): when an autosweep ends, its solutions are in increasing order, `nsols` is their number, each solves the model at its
value, the interval found for a value lies between neighbouring solutions, is finished and within tolerance, and the tolerance returned is
the largest of them. -/
theorem C30_autosweep (solve : PyDict S (Val K F) → Except Err Sol) (getTol : K → K → Sol → Sol → K × K × K) (depth : Nat) (logtol : K) (v : S)
    {lo hi : K} (h0 : 0 < lo) (subs : PyDict S (Val K F)) {s' : AS S K F} {t : Tree K Sol} {n : Nat} {tol : K}
    (h : autosweep solve getTol depth logtol v lo hi subs = (s', .ok (t, n, tol))) :
    ∃ pts : List (K × Sol), pts.Pairwise (fun p q => p.1 < q.1) ∧ t.sollist = pts.map (·.2) ∧ n = pts.length ∧
      (pts.head?.map (·.1) = some lo ∧ pts.getLast?.map (·.1) = some hi) ∧
      (∀ p ∈ pts, solve (subs.set v (.num p.1)) = .ok p.2) ∧
      (∀ u ∈ t.leaves, ∃ k, Within getTol logtol u k ∧ k ≤ tol) ∧ (∃ u ∈ t.leaves, Within getTol logtol u tol) ∧
      ∀ x, lo ≤ x → x ≤ hi → t.minBst x ∈ t.leaves ∧ (t.minBst x).lo ≤ x ∧ x ≤ (t.minBst x).hi ∧
        ((t.minBst x).lo, (t.minBst x).s0) ∈ pts ∧ ((t.minBst x).hi, (t.minBst x).s1) ∈ pts ∧
        ∀ p ∈ pts, p.1 ≤ (t.minBst x).lo ∨ (t.minBst x).hi ≤ p.1 := by
  obtain ⟨a1, a2, a3, a4, a5, a6, a7, _⟩ := autosweep_ok solve getTol depth logtol v h0 subs h
  refine ⟨t.pts, a1.pts, a1.sollist, a5, ⟨by simp [Tree.pts, a2], ?_⟩, a4, a6, a7, ?_⟩
  · unfold Tree.pts
    rw [← List.cons_append, List.getLast?_append, a3]
    rfl
  · intro x h1 h2
    obtain ⟨b1, b2, b3, b4, b5, b6⟩ := a1.minBst x (by rw [a2]; exact h1) (by rw [a3]; exact h2)
    exact ⟨b6, b1, b2, b3, b4, b5⟩

/-- A tree split three times, the last time in vain. -/
example : (runOps [.split [] 2 "b", .split [true] 3 "c", .split [true, false] 5 "d", .cost [false] (3 / 2) 0 1]
      (Tree.fresh (1 : ℚ) 4 "a" "z")).1.sollist = ["a", "b", "c", "z"] ∧
    (runOps [.split [] 2 "b", .split [true] 3 "c", .split [true, false] 5 "d", .cost [false] (3 / 2) 0 1]
      (Tree.fresh (1 : ℚ) 4 "a" "z")).2 = [(2, "b"), (3, "c")] := by
  decide +kernel

/-- An autosweep that ends, with three solves. -/
example : (match (autosweep (S := String) (F := Unit) (fun s => .ok s) (fun lo hi _ _ => ((lo + hi) / 2, 0, hi - lo)) 5 1 "x" 1 (7 / 2)
      [("x", .num (9 : ℚ))]).2 with
    | .ok (t, n, tol) => some (t.sollist, n, tol)
    | .error _ => none) =
    some ([[("x", .num 1)], [("x", .num (9 / 4))], [("x", .num (7 / 2))]], 3, 5 / 8) := by
  decide +kernel

end
end Verif
