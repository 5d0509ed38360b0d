import Verif.Model.RelaxSubs
import Verif.Lemmas.KeyDictBasic
import Mathlib.Data.List.Nodup

/-! What relaxing constants does to substitutions: C33 and C55. -/

set_option linter.unusedSectionVars false

namespace Verif
open PyDict KD RelaxSubs

section
variable {S N K F : Type} [DecidableEq S] [DecidableEq N] [Zero K] [DecidableEq K]

/-- A dict of single values in which every key stands for itself, and the variables `ks` are found under each of their names that has been
looked up. -/
structure Plain (E : KD.Env S N K) (ks : List S) (d : Dict S N K F) : Prop where
  ws : WF d.store
  wk : WF d.keymap
  here : ∀ q v, d.store.get? q = some v → d.keymap.get? (.var q) = some [.var q]
  gone : ∀ q, d.store.get? q = none → d.keymap.get? (.var q) = none
  names : ∀ q ∈ ks, ∀ n ∈ E.names q, ∀ l, d.keymap.get? (.str n) = some l → .var q ∈ l

theorem get?_delK {d : PyDict (Obj S N) (List (Obj S N))} (h : WF d) (k q : Obj S N) :
    PyDict.get? (PyDict.del d k) q = if q = k then none else PyDict.get? d q := by
  rw [get?_del h]
  by_cases hq : q = k
  · subst hq; simp
  · rw [if_neg hq, if_neg (by simpa using fun h' => hq h'.symm)]

theorem get?_delV {d : PyDict S (Val K F)} (h : WF d) (k q : S) : PyDict.get? (PyDict.del d k) q = if q = k then none else PyDict.get? d q := by
  rw [get?_del h]
  by_cases hq : q = k
  · subst hq; simp
  · rw [if_neg hq, if_neg (by simpa using fun h' => hq h'.symm)]

/-- The loop over the names of a deleted variable. -/
theorem unmap_names (q : S) (ns : List N) (hnd : ns.Nodup) : ∀ km : PyDict (Obj S N) (List (Obj S N)), WF km →
    (∀ n ∈ ns, ∀ l, km.get? (.str n) = some l → .var q ∈ l) →
    ∃ km', (ns.map Obj.str).foldlM (unmap (some q)) km = .ok km' ∧ WF km' ∧ (∀ p, km'.get? (.var p) = km.get? (.var p)) ∧
      ∀ n l', km'.get? (.str n) = some l' → ∃ l, km.get? (.str n) = some l ∧ ∀ o ∈ l, o ≠ .var q → o ∈ l' := by
  induction ns with
  | nil => intro km hw _; exact ⟨km, rfl, hw, fun _ => rfl, fun n l h => ⟨l, h, fun o ho _ => ho⟩⟩
  | cons m ns ih =>
    intro km hw hm
    rw [List.nodup_cons] at hnd
    obtain ⟨km1, h1, hw1, hv1, hs1, hn1⟩ : ∃ km1, unmap (some q) km (.str m) = .ok km1 ∧ WF km1 ∧ (∀ p, km1.get? (.var p) = km.get? (.var p)) ∧
        (∀ n l', km1.get? (.str n) = some l' → ∃ l, km.get? (.str n) = some l ∧ ∀ o ∈ l, o ≠ .var q → o ∈ l') ∧
        ∀ n, n ≠ m → km1.get? (.str n) = km.get? (.str n) := by
      unfold unmap
      cases hg : PyDict.get? km (.str m) with
      | none => exact ⟨km, rfl, hw, fun _ => rfl, fun n l h => ⟨l, h, fun o ho _ => ho⟩, fun _ _ => rfl⟩
      | some l =>
        dsimp only
        by_cases hl : l.length = 1
        · rw [if_pos hl]
          refine ⟨_, rfl, wf_del hw _, ?_, ?_, ?_⟩
          · intro p; rw [get?_delK hw, if_neg (by simp)]
          · intro n l' h'
            rw [get?_delK hw] at h'
            split_ifs at h'
            exact ⟨l', h', fun o ho _ => ho⟩
          · intro n hn; rw [get?_delK hw, if_neg (by simpa using hn)]
        · rw [if_neg hl, if_pos (hm m (by simp) l hg)]
          refine ⟨_, rfl, wf_set hw _ _, ?_, ?_, ?_⟩
          · intro p; rw [get?_setO, if_neg (by simp)]
          · intro n l' h'
            rw [get?_setO] at h'
            split_ifs at h' with hn
            · cases hn
              cases h'
              exact ⟨l, hg, fun o ho hne => (List.mem_erase_of_ne hne).2 ho⟩
            · exact ⟨l', h', fun o ho _ => ho⟩
          · intro n hn; rw [get?_setO, if_neg (by simpa using hn)]
    obtain ⟨km', i1, i2, i3, i4⟩ := ih hnd.2 km1 hw1 (by
      intro n hn l hl
      rw [hn1 n (by rintro rfl; exact hnd.1 hn)] at hl
      exact hm n (by simp [hn]) l hl)
    refine ⟨km', by rw [List.map_cons, List.foldlM_cons, h1]; exact i1, i2, fun p => (i3 p).trans (hv1 p), ?_⟩
    intro n l' hl'
    obtain ⟨l1, g1, g2⟩ := i4 n l' hl'
    obtain ⟨l0, g3, g4⟩ := hs1 n l1 g1
    exact ⟨l0, g3, fun o ho hne => g2 o (g4 o ho hne) hne⟩

theorem del_plain {E : KD.Env S N K} {ks : List S} {s : St S N K F} (h : Plain E ks s.dict) {k : S} (hk : k ∈ ks) (hnd : (E.names k).Nodup)
    {v : Val K F} (hv : s.dict.store.get? k = some v) :
    ∃ s', delItem E s (.whole k) = (s', .ok ()) ∧ Plain E (ks.filter (· ≠ k)) s'.dict ∧ s'.heap = s.heap ∧
      ∀ q, s'.dict.store.get? q = if q = k then none else s.dict.store.get? q := by
  obtain ⟨km, h1, h2, h3, h4⟩ := unmap_names k (E.names k) hnd (s.dict.keymap.del (.var k)) (wf_del h.wk _) (by
    intro n hn l hl
    rw [get?_delK h.wk, if_neg (by simp)] at hl
    exact h.names k hk n hn l hl)
  have hg := fun q => get?_delV (K := K) (F := F) h.ws k q
  refine ⟨⟨s.heap, ⟨s.dict.store.del k, km, s.dict.unmapped, s.dict.owned⟩⟩, ?_, ⟨wf_del h.ws _, h2, ?_, ?_, ?_⟩, rfl, hg⟩
  · unfold delItem delVar
    dsimp only
    rw [if_pos (by rw [contains_iff]; exact ⟨_, hv⟩)]
    unfold unmapAll
    dsimp only
    have hu : unmap (some k) s.dict.keymap (.var k) = .ok (s.dict.keymap.del (.var k)) := by
      unfold unmap
      rw [h.here k v hv]
      rfl
    have hf : (Obj.var k :: (E.names k).map Obj.str).foldlM (unmap (some k)) s.dict.keymap = .ok km := by
      rw [List.foldlM_cons, hu]; exact h1
    rw [hf]
  · intro q w hw
    dsimp only at hw ⊢
    rw [hg] at hw
    split_ifs at hw with hq
    rw [h3, get?_delK h.wk, if_neg (by simpa using hq)]
    exact h.here q w hw
  · intro q hq
    dsimp only at hq ⊢
    rw [hg] at hq
    rw [h3, get?_delK h.wk]
    by_cases he : q = k
    · rw [if_pos (by rw [he])]
    · rw [if_neg he] at hq
      rw [if_neg (by simpa using he)]
      exact h.gone q hq
  · intro q hq n hn l hl
    dsimp only at hl
    obtain ⟨hq1, hq2⟩ := List.mem_filter.1 hq
    obtain ⟨l0, g1, g2⟩ := h4 n l hl
    rw [get?_delK h.wk, if_neg (by simp)] at g1
    refine g2 _ (h.names q hq1 n hn l0 g1) ?_
    simpa using hq2

theorem set_plain {E : KD.Env S N K} {ks : List S} {s : St S N K F} (h : Plain E ks s.dict) {k : S} (hs : E.shape k = none) (c : Cell K F) :
    ∃ s', setItem E s (.whole k) (.one c) = (s', .ok ()) ∧ Plain E ks s'.dict ∧ s'.heap = s.heap ∧
      ∀ q, s'.dict.store.get? q = if q = k then some (.cell c) else s.dict.store.get? q := by
  obtain ⟨t, ht, hheap, hst, hkm⟩ : ∃ t, enter s E k false (.one c) = t ∧ t.heap = s.heap ∧ t.dict.store = s.dict.store ∧
      (t.dict.keymap = s.dict.keymap ∧ s.dict.keymap.get? (.var k) = some [.var k] ∨ t.dict.keymap = s.dict.keymap.set (.var k) [.var k]) := by
    unfold enter
    by_cases hc : s.dict.keymap.contains (.var k) = true
    · rw [if_pos hc]
      refine ⟨_, rfl, rfl, rfl, Or.inl ⟨rfl, ?_⟩⟩
      cases hg : PyDict.get? s.dict.store k with
      | none => rw [contains_eq_false.2 (h.gone k hg)] at hc; cases hc
      | some v => exact h.here k v hg
    · rw [if_neg hc]
      exact ⟨_, rfl, rfl, rfl, Or.inr rfl⟩
  refine ⟨put t k (.cell c), ?_, ?_, hheap, ?_⟩
  · unfold setItem
    dsimp only
    rw [hs, ht]
  · unfold put
    refine ⟨?_, ?_, ?_, ?_, ?_⟩
    · dsimp only; rw [hst]; exact wf_set h.ws _ _
    · dsimp only
      rcases hkm with ⟨e, _⟩ | e
      · rw [e]; exact h.wk
      · rw [e]; exact wf_set h.wk _ _
    · intro q v hv
      dsimp only at hv ⊢
      rw [hst, get?_set'] at hv
      rcases hkm with ⟨e, e'⟩ | e
      · rw [e]
        split_ifs at hv with hq
        · rw [hq]; exact e'
        · exact h.here q v hv
      · rw [e, get?_setO]
        split_ifs at hv with hq
        · rw [if_pos (by rw [hq]), hq]
        · rw [if_neg (by simpa using hq)]; exact h.here q v hv
    · intro q hq
      dsimp only at hq ⊢
      rw [hst, get?_set'] at hq
      split_ifs at hq with he
      rcases hkm with ⟨e, _⟩ | e
      · rw [e]; exact h.gone q hq
      · rw [e, get?_setO, if_neg (by simpa using he)]; exact h.gone q hq
    · intro q hq n hn l hl
      dsimp only at hl
      rcases hkm with ⟨e, _⟩ | e
      · rw [e] at hl; exact h.names q hq n hn l hl
      · rw [e, get?_setO, if_neg (by simp)] at hl; exact h.names q hq n hn l hl
  · intro q
    unfold put
    dsimp only
    rw [hst, get?_set']

/-- Constants that are scalars. `rel` is the list of those to relax, with the new variables. -/
def toConsts (l : List (S × K × Bool × S)) : List (Const S N K) := l.map (fun x => ⟨.whole x.1, x.2.1, x.2.2.1, .whole x.2.2.2⟩)

/-- Whether a constant is to be relaxed. -/
def Relaxes (x : S × K × Bool × S) : Prop := x.2.1 ≠ 0 ∧ x.2.2.1 = false

theorem relax_loop {E : KD.Env S N K} (hnd : ∀ q, (E.names q).Nodup) : ∀ (l : List (S × K × Bool × S)) {s : St S N K F},
    Plain E (l.map (·.1)) s.dict → (l.map (·.1)).Nodup → (l.map (·.2.2.2)).Nodup →
    (∀ x ∈ l, E.shape x.1 = none ∧ E.shape x.2.2.2 = none ∧ s.dict.store.get? x.1 ≠ none ∧ s.dict.store.get? x.2.2.2 = none) →
    ∃ s', relaxConsts E s (toConsts l) = (s', .ok ()) ∧ s'.heap = s.heap ∧ Plain E [] s'.dict ∧
      (∀ x ∈ l, Relaxes x → s'.dict.store.get? x.1 = none ∧ s'.dict.store.get? x.2.2.2 = some (.cell (.num x.2.1))) ∧
      (∀ x ∈ l, x.2.1 = 0 → s'.dict.store.get? x.1 = some (.cell (.num 0))) ∧
      ∀ q, (∀ x ∈ l, (Relaxes x → q ≠ x.1 ∧ q ≠ x.2.2.2) ∧ (x.2.1 = 0 → q ≠ x.1)) → s'.dict.store.get? q = s.dict.store.get? q := by
  intro l
  induction l with
  | nil =>
    intro s h _ _ _
    exact ⟨s, rfl, rfl, h, by simp, by simp, fun _ _ => rfl⟩
  | cons x l ih =>
    intro s h hk hn hx
    obtain ⟨k, v, keep, new⟩ := x
    simp only [List.map_cons, List.nodup_cons] at hk hn
    have hxk := hx (k, v, keep, new) (by simp)
    dsimp only at hxk
    have hne : ∀ y ∈ l, y.1 ≠ k := fun y hy he => hk.1 (he ▸ List.mem_map.2 ⟨y, hy, rfl⟩)
    have hnn : ∀ y ∈ l, y.2.2.2 ≠ new := fun y hy he => hn.1 (he ▸ List.mem_map.2 ⟨y, hy, rfl⟩)
    have hkn : k ≠ new := fun he => hxk.2.2.1 (he ▸ hxk.2.2.2)
    have hynew : ∀ y ∈ l, y.1 ≠ new := fun y hy he => (hx y (by simp [hy])).2.2.1 (he ▸ hxk.2.2.2)
    have hyk : ∀ y ∈ l, y.2.2.2 ≠ k := fun y hy he => hxk.2.2.1 (he ▸ (hx y (by simp [hy])).2.2.2)
    -- one step
    obtain ⟨t, ht, hheap, hpl, hst⟩ : ∃ t, relaxConst E s (⟨.whole k, v, keep, .whole new⟩ : Const S N K) = (t, .ok ()) ∧ t.heap = s.heap ∧
        Plain E (l.map (·.1)) t.dict ∧ ∀ q, t.dict.store.get? q =
          if v = 0 then (if q = k then some (.cell (.num 0)) else s.dict.store.get? q)
          else if keep then s.dict.store.get? q
          else if q = new then some (.cell (.num v)) else if q = k then none else s.dict.store.get? q := by
      have hsub : ∀ {d : Dict S N K F} {ks : List S}, Plain E ks d → (∀ q ∈ l.map (·.1), q ∈ ks) → Plain E (l.map (·.1)) d :=
        fun hp hs => ⟨hp.ws, hp.wk, hp.here, hp.gone, fun q hq => hp.names q (hs q hq)⟩
      unfold relaxConst
      dsimp only
      by_cases hv : v = 0
      · rw [if_pos hv]
        obtain ⟨t, t1, t2, t3, t4⟩ := set_plain h hxk.1 (.num (0 : K))
        exact ⟨t, t1, t3, hsub t2 (by intro q hq; exact List.mem_cons_of_mem _ hq), fun q => by rw [t4, if_pos hv]⟩
      · rw [if_neg hv]
        by_cases hke : keep = true
        · rw [if_pos hke]
          exact ⟨s, rfl, rfl, hsub h (by intro q hq; exact List.mem_cons_of_mem _ hq), fun q => by rw [if_neg hv, if_pos hke]⟩
        · rw [if_neg hke]
          obtain ⟨w, hw⟩ := Option.ne_none_iff_exists'.1 hxk.2.2.1
          obtain ⟨t, t1, t2, t3, t4⟩ := del_plain h List.mem_cons_self (hnd k) hw
          obtain ⟨u, u1, u2, u3, u4⟩ := set_plain t2 hxk.2.1 (.num v)
          refine ⟨u, ?_, u3.trans t3, hsub u2 ?_, fun q => by rw [if_neg hv, if_neg hke, u4, t4]⟩
          · rw [t1]; exact u1
          · intro q hq
            obtain ⟨y, hy, rfl⟩ := List.mem_map.1 hq
            exact List.mem_filter.2 ⟨List.mem_cons_of_mem _ hq, by simpa using hne y hy⟩
    have hsame : ∀ q, q ≠ k → q ≠ new → t.dict.store.get? q = s.dict.store.get? q := by
      intro q h1 h2
      rw [hst]
      split_ifs <;> rfl
    obtain ⟨s', i1, i2, i3, i4, i5, i6⟩ := ih hpl hk.2 hn.2 (by
      intro y hy
      obtain ⟨a, b, c, d⟩ := hx y (by simp [hy])
      rw [hsame _ (hne y hy) (hynew y hy), hsame _ (hyk y hy) (hnn y hy)]
      exact ⟨a, b, c, d⟩)
    refine ⟨s', ?_, i2.trans hheap, i3, ?_, ?_, ?_⟩
    · show (relaxConst E s _).bind _ = _
      rw [ht]; exact i1
    · intro y hy hr
      rcases List.mem_cons.1 hy with rfl | hy
      · obtain ⟨hv, hke⟩ := hr
        dsimp only at hv hke
        subst hke
        rw [i6 k, i6 new, hst, hst]
        · simp [hv, hkn]
        · intro z hz
          exact ⟨fun _ => ⟨(hynew z hz).symm, (hnn z hz).symm⟩, fun _ => (hynew z hz).symm⟩
        · intro z hz
          exact ⟨fun _ => ⟨(hne z hz).symm, (hyk z hz).symm⟩, fun _ => (hne z hz).symm⟩
      · exact i4 y hy hr
    · intro y hy hv
      rcases List.mem_cons.1 hy with rfl | hy
      · dsimp only at hv ⊢
        rw [i6 k, hst, if_pos hv, if_pos rfl]
        intro z hz
        exact ⟨fun _ => ⟨(hne z hz).symm, (hyk z hz).symm⟩, fun _ => (hne z hz).symm⟩
      · exact i5 y hy hv
    · intro q hq
      rw [i6 q (fun z hz => hq z (List.mem_cons_of_mem _ hz)), hst]
      obtain ⟨a, b⟩ := hq _ List.mem_cons_self
      unfold Relaxes at a
      dsimp only at a b
      by_cases hv : v = 0
      · rw [if_pos hv, if_neg (b hv)]
      · rw [if_neg hv]
        cases keep
        · rw [if_neg (by simp), if_neg (a ⟨hv, rfl⟩).2, if_neg (a ⟨hv, rfl⟩).1]
        · rw [if_pos rfl]

theorem plain_get {E : KD.Env S N K} {s : St S N K F} (h : Plain E [] s.dict) {q : S} (hq : E.shape q = none) :
    (getItem E s (.whole q)).2 = match s.dict.store.get? q with | none => .error .keyError | some v => .ok (.one v) := by
  unfold getItem getParsed
  dsimp only
  cases hg : PyDict.get? s.dict.store q with
  | none => rw [h.gone q hg]; rfl
  | some v =>
    rw [h.here q v hg]
    unfold readKey
    dsimp only [Option.getD_some]
    rw [if_neg (by rw [hq]; simp)]
    simp only [Res.bind, hg]

/-- C33 for the substitutions of scalars: relaxing succeeds; each relaxed constant is free afterwards and the new constant has its value;
constants that are 0 stay 0, and everything else (in particular what is excluded) reads as before. -/
theorem C33_substitutions_partial {E : KD.Env S N K} (hnd : ∀ q, (E.names q).Nodup) {s : St S N K F} (l : List (S × K × Bool × S))
    (hp : Plain E (l.map (·.1)) s.dict) (hk : (l.map (·.1)).Nodup) (hn : (l.map (·.2.2.2)).Nodup)
    (hx : ∀ x ∈ l, E.shape x.1 = none ∧ E.shape x.2.2.2 = none ∧ s.dict.store.get? x.1 ≠ none ∧ s.dict.store.get? x.2.2.2 = none) :
    ∃ s', constantsRelaxed E s (toConsts l) = (s', .ok ()) ∧
      (∀ x ∈ l, Relaxes x → (getItem E s' (.whole x.1)).2 = .error .keyError ∧ (hasItem E s' (.whole x.1)).2 = .ok false ∧
        (getItem E s' (.whole x.2.2.2)).2 = .ok (.one (.cell (.num x.2.1)))) ∧
      (∀ x ∈ l, x.2.1 = 0 → (getItem E s' (.whole x.1)).2 = .ok (.one (.cell (.num 0)))) ∧
      ∀ q, E.shape q = none → (∀ x ∈ l, (Relaxes x → q ≠ x.1 ∧ q ≠ x.2.2.2) ∧ (x.2.1 = 0 → q ≠ x.1)) →
        (getItem E s' (.whole q)).2 = (getItem E s (.whole q)).2 := by
  obtain ⟨s', h1, _, h3, h4, h5, h6⟩ := relax_loop hnd l (s := { s with dict := copyOf s.dict }) ⟨hp.ws, hp.wk, hp.here, hp.gone, hp.names⟩ hk hn hx
  have hp0 : Plain E [] s.dict := ⟨hp.ws, hp.wk, hp.here, hp.gone, by simp⟩
  refine ⟨s', h1, ?_, ?_, ?_⟩
  · intro x hxl hr
    obtain ⟨a, b⟩ := h4 x hxl hr
    obtain ⟨c, d, _⟩ := hx x hxl
    refine ⟨by rw [plain_get h3 c, a], ?_, by rw [plain_get h3 d, b]⟩
    unfold hasItem
    dsimp only
    rw [contains_eq_false.2 a, contains_eq_false.2 (h3.gone _ a)]; rfl
  · intro x hxl hr
    rw [plain_get h3 (hx x hxl).1, h5 x hxl hr]
  · intro q hq h7
    rw [plain_get h3 hq, plain_get hp0 hq, h6 q h7]
    rfl

/-- C55 for scalars: relaxing does not change any array, so the substitutions of the original model stay what they were. -/
theorem C55_scalars_partial {E : KD.Env S N K} (hnd : ∀ q, (E.names q).Nodup) {s : St S N K F} (l : List (S × K × Bool × S))
    (hp : Plain E (l.map (·.1)) s.dict) (hk : (l.map (·.1)).Nodup) (hn : (l.map (·.2.2.2)).Nodup)
    (hx : ∀ x ∈ l, E.shape x.1 = none ∧ E.shape x.2.2.2 = none ∧ s.dict.store.get? x.1 ≠ none ∧ s.dict.store.get? x.2.2.2 = none)
    (key : Key S N) : getItem E ⟨(constantsRelaxed E s (toConsts l)).1.heap, s.dict⟩ key = getItem E s key := by
  obtain ⟨s', h1, h2, _⟩ := relax_loop hnd l (s := { s with dict := copyOf s.dict }) ⟨hp.ws, hp.wk, hp.here, hp.gone, hp.names⟩ hk hn hx
  unfold constantsRelaxed
  rw [h1, h2]

end

/-- Scalars `a`, `b`, `c`, and a vector `x` with two elements; `A`, `B`, `C`, `X` are the new constants. -/
def rsEnv : KD.Env String String ℚ := ⟨fun s => if s = "x" ∨ s = "X" then some 2 else none, fun s => [s], id, fun k => Rat.floor k⟩

/-- `a` is 2, `b` is 0 and `c` is 5. -/
abbrev rs0 : St String String ℚ Unit :=
  (setItem rsEnv (setItem rsEnv (setItem rsEnv ⟨[], empty⟩ (.whole "a") (.one (.num 2))).1 (.whole "b") (.one (.num 0))).1 (.whole "c") (.one (.num 5))).1

/-- The hypotheses can be met. -/
example := C33_substitutions_partial (E := rsEnv) (fun _ => List.nodup_singleton _) (s := rs0)
  [("a", 2, false, "A"), ("b", 0, false, "B"), ("c", 5, true, "C")] (by
    have h1 : rs0.dict.store = [("a", .cell (.num 2)), ("b", .cell (.num 0)), ("c", .cell (.num 5))] := by decide +kernel
    have h2 : rs0.dict.keymap = [(.var "a", [.var "a"]), (.var "b", [.var "b"]), (.var "c", [.var "c"])] := by decide +kernel
    refine ⟨by rw [h1]; simp [WF], by rw [h2]; simp [WF], ?_, ?_, ?_⟩
    · intro q v
      rw [h1, h2]
      simp only [PyDict.get?]
      intro h
      split_ifs at h with a b c
      · have : "a" = q := by simpa using a
        subst this; rfl
      · have : "b" = q := by simpa using b
        subst this; rfl
      · have : "c" = q := by simpa using c
        subst this; rfl
    · intro q
      rw [h1, h2]
      simp only [PyDict.get?]
      intro h
      split_ifs at h with a b c
      simp only [beq_iff_eq] at a b c
      simp [a, b, c]
    · intro q _ n _ l hl
      rw [h2] at hl
      simp [PyDict.get?] at hl)
  (by decide) (by decide) (by decide +kernel)

/-- `x` is `[2, 3]`. -/
abbrev rs1 : St String String ℚ Unit :=
  (setItem rsEnv (setItem rsEnv ⟨[], empty⟩ (.elem "x" 0) (.one (.num 2))).1 (.elem "x" 1) (.one (.num 3))).1

/-- `x` is `[0, 3]`. -/
abbrev rs2 : St String String ℚ Unit :=
  (setItem rsEnv (setItem rsEnv ⟨[], empty⟩ (.elem "x" 0) (.one (.num 0))).1 (.elem "x" 1) (.one (.num 3))).1

/-- C55 fails for vectors: making the relaxed set takes away the values of the vector in the original model. -/
theorem C55_vectors_fails :
    let r := constantsRelaxed rsEnv rs1 [⟨.elem "x" 0, 2, false, .elem "X" 0⟩, ⟨.elem "x" 1, 3, false, .elem "X" 1⟩]
    r.2 = .ok () ∧ (getItem rsEnv rs1 (.elem "x" 0)).2 = .ok (.one (.cell (.num 2))) ∧
    (getItem rsEnv ⟨r.1.heap, rs1.dict⟩ (.elem "x" 0)).2 = .ok (.one (.cell .nan)) ∧
    (hasItem rsEnv ⟨r.1.heap, rs1.dict⟩ (.elem "x" 0)).2 = .ok false := by decide +kernel

/-- C33 fails for vectors with an element that is not relaxed: afterwards the element is there but reading it raises. -/
theorem C33_vectors_fails :
    let r := constantsRelaxed rsEnv rs2 [⟨.elem "x" 0, 0, false, .elem "X" 0⟩, ⟨.elem "x" 1, 3, false, .elem "X" 1⟩]
    r.2 = .ok () ∧ (hasItem rsEnv r.1 (.elem "x" 0)).2 = .ok true ∧ (getItem rsEnv r.1 (.elem "x" 0)).2 = .error .keyError := by decide +kernel

/-- Three scalars with a common name, and the new constants. -/
def rsTriplets : KD.Env String String ℚ := ⟨fun _ => none, fun _ => ["x"], id, fun k => Rat.floor k⟩

/-- C33 fails for a constant set after a name was looked up that it shares with two others: making the relaxed set raises `KeyError`. -/
theorem C33_names_fails :
    let s := setItem rsTriplets (setItem rsTriplets (⟨[], empty⟩ : St String String ℚ Unit) (.whole "p") (.one (.num 1))).1 (.whole "q") (.one (.num 2))
    let s := setItem rsTriplets (hasItem rsTriplets s.1 (.str "x")).1 (.whole "r") (.one (.num 3))
    s.2 = .ok () ∧ (constantsRelaxed rsTriplets s.1 [⟨.whole "r", 3, false, .whole "R"⟩]).2 = .error .keyError := by decide +kernel

end Verif
