import Verif.Lemmas.KeyDict

/-! Properties of `KeyDict`: C23 and C25. -/

set_option linter.unusedSectionVars false

namespace Verif
open PyDict
namespace KD
variable {S N K F : Type} [DecidableEq S] [DecidableEq N]

/-- One operation. Arrays that are written are new; exceptions of reads are caught. -/
def runOp (E : Env S N K) (s : St S N K F) : Op S N K F → Res S N K F Unit
  | .write (.elem k i c) => setItem E s (.elem k i) (.one c)
  | .write (.fill k c) => setItem E s (.whole k) (.one c)
  | .write (.list k cs) => setItem E s (.whole k) (.list cs false)
  | .write (.arr k d cs) => setItem E { s with heap := s.heap ++ [⟨d, cs⟩] } (.whole k) (.arr s.heap.length)
  | .write (.scalar k c) => setItem E s (.whole k) (.one c)
  | .get k => ((getItem E s k).1, .ok ())
  | .has k => ((hasItem E s k).1, .ok ())

/-- A sequence of operations, up to the first exception of a write. -/
def run (E : Env S N K) (s : St S N K F) (ops : List (Op S N K F)) : Res S N K F Unit :=
  ops.foldl (fun r o => r.bind (fun s _ => runOp E s o)) (s, .ok ())

theorem getD_replicate {n i : Nat} (h : i < n) (c : Cell K F) : (List.replicate n c).getD i .nan = c := by
  simp [List.getD_eq_getElem?_getD, h]

theorem write_step {E : Env S N K} {ws : List (Write S K F)} {s : St S N K F} (h : Rel E ws s) (w : Write S K F) (hf : w.Fine E ws) :
    ∃ s', runOp E s (.write w) = (s', .ok ()) ∧ Rel E (ws ++ [w]) s' := by
  cases w with
  | elem k i c =>
    obtain ⟨⟨n, hn, hi⟩, hc⟩ := hf
    obtain ⟨a, e1, e2, e3, e4, e5, e6⟩ := enter_elem h hn (.one c)
    obtain ⟨s', a', h1, h2, h3, h4⟩ := setElem_spec E e1 e4 (by rw [e2 k, if_pos rfl]) hi hc
    refine ⟨s', h1, rel_vec h (w := .elem k i c) hn (a := a') h2.wf (by rw [h2.keymap, h2.unmapped]; exact e6) ?_ ?_ h3 ?_⟩
    · intro q
      rw [h2.arr q, Write.target]
      by_cases hq : q = k
      · rw [if_pos hq, if_pos hq]
      · rw [if_neg hq, if_neg hq, e2 q, if_neg hq]
    · intro q
      rw [h2.cell q, Write.target]
      by_cases hq : q = k
      · rw [if_pos hq, if_pos hq]
      · rw [if_neg hq, if_neg hq, e3 q, if_neg hq]
    · intro j hj
      rw [h4]
      simp only [Write.onElem, Write.target, true_and, List.getD_eq_getElem?_getD]
      by_cases hij : i = j
      · subst hij
        rw [if_pos rfl, List.getElem?_set_self (by rw [e4.len]; exact hj), Option.getD_some]
      · rw [if_neg hij, List.getElem?_set_ne hij, ← List.getD_eq_getElem?_getD]
        exact e5 j hj
  | fill k c =>
    obtain ⟨⟨n, hn⟩, hnum, hs⟩ := hf
    obtain ⟨e1, e2, e3⟩ := enter_whole h k (.one c)
    have hw : Wf (enter s E k false (.one c)) := wf_congr e1 e2 h.wf
    have t := putNew_spec hw k (⟨.f32, List.replicate n c⟩ : Arr K F)
    refine ⟨putNew (enter s E k false (.one c)) k ⟨.f32, List.replicate n c⟩, ?_, ?_⟩
    · simp only [runOp, setItem, hn]
      cases c with
      | nan => rfl
      | num x =>
        have : E.r32 x = x := hs
        simp only [setVec, this]
      | fn f => exact hnum.elim
      | sweep f => exact hnum.elim
    · refine rel_vec h (w := .fill k c) hn (a := ⟨.f32, List.replicate n c⟩) t.wf (by rw [t.keymap, t.unmapped]; exact e3) ?_ ?_ ⟨by simp, by simp, ?_, ?_⟩ ?_
      · rw [← arrOf_congr e1 e2]; exact t.arr
      · rw [← cellOf_congr e2]; exact t.cell
      · intro _ c' hc'; rw [List.eq_of_mem_replicate hc']; exact hnum
      · intro c' hc'; rw [List.eq_of_mem_replicate hc']; exact hs
      · intro i hi
        simp only [Write.onElem, Write.target, if_true]
        exact getD_replicate hi c
  | list k cs =>
    obtain ⟨hn, hs⟩ := hf
    obtain ⟨e1, e2, e3⟩ := enter_whole h k (.list cs false)
    have hw : Wf (enter s E k false (.list cs false)) := wf_congr e1 e2 h.wf
    set isNum := cs.all (fun c => match c with | .num _ => true | .nan => true | _ => false) with hisNum
    have t := putNew_spec hw k (⟨if isNum then .f64 else .obj, cs⟩ : Arr K F)
    refine ⟨putNew (enter s E k false (.list cs false)) k ⟨if isNum then .f64 else .obj, cs⟩, ?_, ?_⟩
    · simp only [runOp, setItem, hn, setVec]
      rfl
    · refine rel_vec h (w := .list k cs) hn (a := ⟨if isNum then .f64 else .obj, cs⟩) t.wf (by rw [t.keymap, t.unmapped]; exact e3) ?_ ?_ ⟨rfl, ?_, ?_, hs⟩ ?_
      · rw [← arrOf_congr e1 e2]; exact t.arr
      · rw [← cellOf_congr e2]; exact t.cell
      · split_ifs <;> simp
      · intro hd c hc
        have : isNum = true := by
          by_contra hne
          simp [hne] at hd
        rw [hisNum, List.all_eq_true] at this
        have := this c hc
        cases c with
        | nan => exact trivial
        | num x => exact trivial
        | fn f => cases this
        | sweep f => cases this
      · intro i hi
        simp only [Write.onElem, Write.target, if_true]
  | arr k d cs =>
    obtain ⟨hn, hs, hd⟩ := hf
    -- the new array
    have h0 : Rel E ws (⟨s.heap ++ [⟨d, cs⟩], s.dict⟩ : St S N K F) := by
      have ha : arrOf (⟨s.heap ++ [⟨d, cs⟩], s.dict⟩ : St S N K F) = arrOf s := by
        funext q
        unfold arrOf
        cases hq : PyDict.get? s.dict.store q with
        | none => rfl
        | some v =>
          cases v with
          | cell c => rfl
          | arr r =>
            have := h.wf.valid q r hq
            simp [List.getElem?_append_left this]
      have hc : cellOf (⟨s.heap ++ [⟨d, cs⟩], s.dict⟩ : St S N K F) = cellOf s := cellOf_congr rfl
      refine ⟨⟨?_, h.wf.inj, h.wf.uniq⟩, h.idx, by rw [ha, hc]; exact h.scal, by rw [ha, hc]; exact h.vec⟩
      intro q r hq
      have := h.wf.valid q r hq
      simp only [List.length_append, List.length_singleton]
      omega
    set s0 : St S N K F := ⟨s.heap ++ [⟨d, cs⟩], s.dict⟩ with hs0
    have hfresh : s0.heap[s.heap.length]? = some ⟨d, cs⟩ := by simp [hs0]
    have hnew : ∀ q, s0.dict.store.get? q ≠ some (.arr s.heap.length) := by
      intro q hq
      have := h.wf.valid q _ hq
      omega
    obtain ⟨e1, e2, e3⟩ := enter_whole h0 k (.arr s.heap.length)
    set s1 := enter s0 E k false (.arr s.heap.length) with hs1
    have hw : Wf s1 := wf_congr e1 e2 h0.wf
    have hA : arrOf s1 = arrOf s0 := arrOf_congr e1 e2
    have hC : cellOf s1 = cellOf s0 := cellOf_congr e2
    -- cases on whether the vector has a value
    have hmerge : ∀ b : Arr K F, Typed E.r32 cs.length b → b.cells = cs → (b.dtype ≠ .obj → d ≠ .obj) → Touched ws k →
        ∃ s', setOver E s1 k b = (s', .ok ()) ∧ Rel E (ws ++ [.arr k d cs]) s' := by
      intro b hbt hbc hbd ht
      obtain ⟨_, _, h3⟩ := h0.vec k _ hn
      obtain ⟨a, ha, hat, hav⟩ := h3 ht
      obtain ⟨s', a', g1, g2, g3, g4⟩ := setOver_spec E hw hat hbt (by rw [hA]; exact ha) (by
        intro hb c hc
        obtain ⟨i, hi⟩ := List.mem_iff_getElem?.1 hc
        have hilt : i < cs.length := by
          rw [← hat.len]
          exact (List.getElem?_eq_some_iff.1 hi).1
        have := (hd (hbd hb)).2 i hilt
        rw [← hav i hilt, List.getD_eq_getElem?_getD, hi] at this
        exact this)
      refine ⟨s', g1, rel_vec h0 (w := .arr k d cs) hn g2.wf (by rw [g2.keymap, g2.unmapped]; exact e3) ?_ ?_ g3 ?_⟩
      · rw [← hA]; exact g2.arr
      · rw [← hC]; exact g2.cell
      · intro i hi
        rw [g4, merge_get _ _ (by rw [hat.len, hbt.len]), hbc, hav i hi]
        simp only [Write.onElem, Write.target, if_true]
        cases List.getD cs i Cell.nan <;> rfl
    have hfirst : ∀ (s' : St S N K F) (b : Arr K F), Typed E.r32 cs.length b → b.cells = cs → ToArr s1 s' k b → ¬ Touched ws k →
        Rel E (ws ++ [.arr k d cs]) s' := by
      intro s' b hbt hbc t ht
      refine rel_vec h0 (w := .arr k d cs) hn t.wf (by rw [t.keymap, t.unmapped]; exact e3) ?_ ?_ hbt ?_
      · rw [← hA]; exact t.arr
      · rw [← hC]; exact t.cell
      · intro i hi
        rw [hbc]
        simp only [Write.onElem, Write.target, if_true]
        rw [lastElem_untouched ht]
        cases List.getD cs i Cell.nan <;> rfl
    have hcont : s1.dict.store.contains k = true ↔ Touched ws k := by
      rw [contains_iff_of hw, hA, hC]
      obtain ⟨v1, v2, v3⟩ := h0.vec k _ hn
      constructor
      · rintro (⟨a, ha⟩ | ⟨c, hc⟩)
        · by_contra ht
          rw [v2 ht] at ha; cases ha
        · rw [v1] at hc; cases hc
      · intro ht
        obtain ⟨a, ha, _⟩ := v3 ht
        exact Or.inl ⟨a, ha⟩
    have hrun : runOp E s (.write (.arr k d cs)) = setVec E s1 k cs.length (.arr s.heap.length) := by
      simp only [runOp, setItem]
      rw [hn]
    rw [hrun]
    unfold setVec
    dsimp only
    rw [e1, hfresh]
    dsimp only
    by_cases hdi : d = .int
    · rw [if_pos hdi]
      have hmap : cs.map (roundCell E) = cs := by
        conv_rhs => rw [← List.map_id cs]
        apply List.map_congr_left
        intro c hc
        have := hs c hc
        cases c with
        | num x =>
          have hx : E.r32 x = x := this
          simp [roundCell, hx]
        | nan => rfl
        | fn f => rfl
        | sweep f => rfl
      have hbt : Typed E.r32 cs.length (⟨.f32, cs⟩ : Arr K F) := ⟨rfl, by simp, fun _ => (hd (by rw [hdi]; simp)).1, hs⟩
      rw [hmap]
      by_cases ht : Touched ws k
      · rw [if_pos (hcont.2 ht)]
        exact hmerge _ hbt rfl (by intro _; rw [hdi]; simp) ht
      · rw [if_neg (by rw [hcont]; exact ht)]
        exact ⟨_, rfl, hfirst _ _ hbt rfl (putNew_spec hw k _) ht⟩
    · rw [if_neg hdi]
      have hbt : Typed E.r32 cs.length (⟨d, cs⟩ : Arr K F) := ⟨rfl, hdi, fun h => (hd h).1, hs⟩
      by_cases ht : Touched ws k
      · rw [if_pos (hcont.2 ht)]
        exact hmerge _ hbt rfl (fun h => h) ht
      · rw [if_neg (by rw [hcont]; exact ht)]
        refine ⟨_, rfl, hfirst _ _ hbt rfl ?_ ht⟩
        have hg : ∀ q, PyDict.get? (put s1 k (.arr s.heap.length)).dict.store q = if q = k then some (.arr s.heap.length) else
            PyDict.get? s1.dict.store q := fun q => get?_set' _ _ _ _
        have hne : ∀ q r, PyDict.get? s1.dict.store q = some (.arr r) → r ≠ s.heap.length := by
          rintro q r hq rfl
          rw [e2] at hq
          exact hnew q hq
        refine ⟨⟨?_, ?_, wf_set hw.uniq _ _⟩, ?_, ?_, rfl, rfl⟩
        · intro q r hq
          rw [hg q] at hq
          by_cases he : q = k
          · rw [if_pos he] at hq
            cases hq
            show s.heap.length < s1.heap.length
            rw [e1]; simp [hs0]
          · rw [if_neg he] at hq
            exact hw.valid q r hq
        · intro q q' r hq hq'
          rw [hg] at hq hq'
          by_cases he : q = k
          · by_cases he' : q' = k
            · rw [he, he']
            · rw [if_pos he] at hq
              rw [if_neg he'] at hq'
              cases hq
              exact absurd rfl (hne q' _ hq')
          · by_cases he' : q' = k
            · rw [if_neg he] at hq
              rw [if_pos he'] at hq'
              cases hq'
              exact absurd rfl (hne q _ hq)
            · rw [if_neg he] at hq
              rw [if_neg he'] at hq'
              exact hw.inj q q' r hq hq'
        · intro q
          unfold arrOf
          rw [hg q]
          by_cases he : q = k
          · rw [if_pos he, if_pos he]
            show s1.heap[s.heap.length]? = _
            rw [e1, hfresh]
          · rw [if_neg he, if_neg he]
            rfl
        · intro q
          unfold cellOf
          rw [hg q]
          by_cases he : q = k
          · rw [if_pos he, if_pos he]
          · rw [if_neg he, if_neg he]
  | scalar k c =>
    have hn : E.shape k = none := hf
    obtain ⟨e1, e2, e3⟩ := enter_whole h k (.one c)
    set s1 := enter s E k false (.one c) with hs1
    have hw : Wf s1 := wf_congr e1 e2 h.wf
    have hg : ∀ q, PyDict.get? (put s1 k (.cell c)).dict.store q = if q = k then some (.cell c) else
        PyDict.get? s1.dict.store q := fun q => get?_set' _ _ _ _
    refine ⟨put s1 k (.cell c), by simp only [runOp, setItem]; rw [hn], rel_scal h hn ⟨?_, ?_, wf_set hw.uniq _ _⟩ e3 ?_ ?_⟩
    · intro q r hq
      rw [hg q] at hq
      by_cases he : q = k
      · rw [if_pos he] at hq; cases hq
      · rw [if_neg he] at hq; exact hw.valid q r hq
    · intro q q' r hq hq'
      rw [hg] at hq hq'
      by_cases he : q = k
      · rw [if_pos he] at hq; cases hq
      · by_cases he' : q' = k
        · rw [if_pos he'] at hq'; cases hq'
        · rw [if_neg he] at hq
          rw [if_neg he'] at hq'
          exact hw.inj q q' r hq hq'
    · intro q
      rw [← arrOf_congr e1 e2]
      unfold arrOf
      rw [hg q]
      by_cases he : q = k
      · rw [if_pos he, if_pos he]
      · rw [if_neg he, if_neg he]; rfl
    · intro q
      rw [← cellOf_congr e2]
      unfold cellOf
      rw [hg q]
      by_cases he : q = k
      · rw [if_pos he, if_pos he]
      · rw [if_neg he, if_neg he]

/-! ## Reading -/

/-- `v` is what was last written to `q`. -/
def Shows (E : Env S N K) (ws : List (Write S K F)) (heap : Heap K F) (q : S) (v : Val K F) : Prop :=
  match E.shape q with
  | none => ∃ c, v = .cell c ∧ lastScalar ws q = some c
  | some n => ∃ r d, v = .arr r ∧ heap[r]? = some ⟨d, (List.range n).map (lastElem ws q)⟩

theorem shows_mono {E : Env S N K} {ws : List (Write S K F)} {heap heap' : Heap K F} {q : S} {v : Val K F} (h : Shows E ws heap q v)
    (hp : heap <+: heap') : Shows E ws heap' q v := by
  unfold Shows at *
  cases hs : E.shape q with
  | none => rw [hs] at h; exact h
  | some n =>
    rw [hs] at h
    obtain ⟨r, d, h1, h2⟩ := h
    refine ⟨r, d, h1, ?_⟩
    obtain ⟨t, rfl⟩ := hp
    rw [List.getElem?_append_left (List.getElem?_eq_some_iff.1 h2).1, h2]

theorem rel_same {E : Env S N K} {ws : List (Write S K F)} {s s' : St S N K F} (h : Rel E ws s) {k : S} {a : Arr K F} (ha : arrOf s k = some a)
    (t : ToArr s s' k a) : Rel E ws s' := by
  have h1 : arrOf s' = arrOf s := by
    funext q
    rw [t.arr q]
    by_cases hq : q = k
    · rw [if_pos hq, hq, ha]
    · rw [if_neg hq]
  have h2 : cellOf s' = cellOf s := by
    funext q
    rw [t.cell q]
    by_cases hq : q = k
    · rw [if_pos hq, hq, cell_none_of_arr ha]
    · rw [if_neg hq]
  exact ⟨t.wf, by rw [t.keymap, t.unmapped]; exact h.idx, by rw [h1, h2]; exact h.scal, by rw [h1, h2]; exact h.vec⟩

theorem cells_eq {ws : List (Write S K F)} {q : S} {n : Nat} {a : Arr K F} (hl : a.cells.length = n)
    (hv : ∀ i, i < n → a.cells.getD i .nan = lastElem ws q i) : a.cells = (List.range n).map (lastElem ws q) := by
  apply List.ext_getElem (by simp [hl])
  intro i h1 h2
  have := hv i (by omega)
  rw [List.getD_eq_getElem?_getD, List.getElem?_eq_getElem h1, Option.getD_some] at this
  rw [this]
  simp

theorem copyOnWrite_heap {s s' : St S N K F} {k : S} (h : copyOnWrite s k = (s', .ok ())) : s.heap <+: s'.heap := by
  unfold copyOnWrite at h
  by_cases hk : k ∈ s.dict.owned
  · rw [if_pos hk] at h; cases h; exact List.prefix_refl _
  · rw [if_neg hk] at h
    split at h
    · cases h
    · cases h
    · split at h
      · cases h
      · cases h; exact List.prefix_append _ _

theorem readKey_whole {E : Env S N K} {ws : List (Write S K F)} {s : St S N K F} (h : Rel E ws s) {q : S} (ht : Touched ws q) :
    ∃ s' v, readKey E s none (.var q) = (s', .ok (q, v)) ∧ Rel E ws s' ∧ Shows E ws s'.heap q v ∧ s.heap <+: s'.heap := by
  cases hs : E.shape q with
  | none =>
    obtain ⟨h1, h2, h3⟩ := h.scal q hs
    cases hl : lastScalar ws q with
    | none => exact absurd hl (h3.2 ht)
    | some c =>
      rw [hl] at h1
      have hg : PyDict.get? s.dict.store q = some (.cell c) := by
        unfold cellOf at h1
        split at h1
        · next c' hc' => rw [hc']; cases h1; rfl
        · cases h1
      refine ⟨s, .cell c, ?_, h, ?_, List.prefix_refl _⟩
      · simp [readKey, hs, Res.bind, hg]
      · unfold Shows
        rw [hs]
        exact ⟨c, rfl, hl⟩
  | some n =>
    obtain ⟨_, _, h3⟩ := h.vec q n hs
    obtain ⟨a, ha, hat, hav⟩ := h3 ht
    obtain ⟨s', hc, t⟩ := copyOnWrite_spec h.wf ha
    have ha' : arrOf s' q = some a := by rw [t.arr q, if_pos rfl]
    obtain ⟨r, hr, hra⟩ := arrOf_some ha'
    refine ⟨s', .arr r, ?_, rel_same h ha t, ?_, copyOnWrite_heap hc⟩
    · simp [readKey, hs, hc, Res.bind, hr]
    · unfold Shows
      rw [hs]
      refine ⟨r, a.dtype, rfl, ?_⟩
      rw [hra, ← cells_eq hat.len hav]

theorem readKey_elem {E : Env S N K} {ws : List (Write S K F)} {s : St S N K F} (h : Rel E ws s) {q : S} {n i : Nat} (hn : E.shape q = some n)
    (hi : i < n) (ht : Touched ws q) : readKey E s (some i) (.var q) = (s, .ok (q, .cell (lastElem ws q i))) := by
  obtain ⟨_, _, h3⟩ := h.vec q n hn
  obtain ⟨a, ha, hat, hav⟩ := h3 ht
  obtain ⟨r, hr, hra⟩ := arrOf_some ha
  have hc : a.cells[i]? = some (lastElem ws q i) := by
    rw [cells_eq hat.len hav]
    simp [hi]
  simp [readKey, Res.bind, hr, hra, hc]

theorem readKeys_whole {E : Env S N K} {ws : List (Write S K F)} (qs : List S) : ∀ {s : St S N K F}, Rel E ws s → (∀ q ∈ qs, Touched ws q) →
    ∃ s' vs, readKeys E none s (qs.map Obj.var) = (s', .ok vs) ∧ Rel E ws s' ∧ vs.map (·.1) = qs ∧
      (∀ qv ∈ vs, Shows E ws s'.heap qv.1 qv.2) ∧ s.heap <+: s'.heap := by
  induction qs with
  | nil => intro s h _; exact ⟨s, [], rfl, h, rfl, by simp, List.prefix_refl _⟩
  | cons q qs ih =>
    intro s h ht
    obtain ⟨s1, v, g1, g2, g3, g4⟩ := readKey_whole h (ht q (by simp))
    obtain ⟨s2, vs, i1, i2, i3, i4, i5⟩ := ih g2 (fun q hq => ht q (by simp [hq]))
    refine ⟨s2, (q, v) :: vs, ?_, i2, by simp [i3], ?_, g4.trans i5⟩
    · rw [List.map_cons]
      simp only [readKeys, g1, Res.bind, i1]
    · intro qv hqv
      rcases List.mem_cons.1 hqv with rfl | hqv
      · exact shows_mono g3 i5
      · exact i4 qv hqv

theorem get?_eq_none_of {s : St S N K F} (hw : Wf s) {q : S} (h1 : arrOf s q = none) (h2 : cellOf s q = none) : s.dict.store.get? q = none := by
  have := (not_congr (contains_iff_of hw q)).2 (by simp [h1, h2])
  rwa [Bool.not_eq_true, contains_eq_false] at this

/-- Membership of stored keys. -/
theorem rel_contains {E : Env S N K} {ws : List (Write S K F)} {s : St S N K F} (h : Rel E ws s) (q : S) :
    s.dict.store.contains q = true ↔ Touched ws q := by
  rw [contains_iff_of h.wf]
  cases hs : E.shape q with
  | none =>
    obtain ⟨h1, h2, h3⟩ := h.scal q hs
    rw [← h3, h1, h2]
    cases lastScalar ws q <;> simp
  | some n =>
    obtain ⟨h1, h2, h3⟩ := h.vec q n hs
    constructor
    · rintro (⟨a, ha⟩ | ⟨c, hc⟩)
      · by_contra ht
        rw [h2 ht] at ha; cases ha
      · rw [h1] at hc; cases hc
    · intro ht
      obtain ⟨a, ha, _⟩ := h3 ht
      exact Or.inl ⟨a, ha⟩

theorem rel_reindex {E : Env S N K} {ws : List (Write S K F)} {s : St S N K F} (h : Rel E ws s) {km : PyDict (Obj S N) (List (Obj S N))}
    {um : List (Obj S N)} (hi : Idx E km um (Touched ws)) : Rel E ws ⟨s.heap, ⟨s.dict.store, km, um, s.dict.owned⟩⟩ :=
  ⟨wf_congr (s := s) rfl rfl h.wf, hi, h.scal, h.vec⟩

/-- An index entry that is not there stays away when it is read. -/
theorem del_absent {km : PyDict (Obj S N) (List (Obj S N))} {o : Obj S N} (h : km.get? o = none) : km.del o = km := del_of_not_contains h

theorem get_untouched {E : Env S N K} {ws : List (Write S K F)} {s : St S N K F} (h : Rel E ws s) {q : S} (ht : ¬ Touched ws q)
    (idx : Option Nat) : getParsed E s (.var q) idx = (s, .error .keyError) := by
  unfold getParsed
  rw [h.idx.novar q ht]
  simp [del_absent (h.idx.novar q ht)]

theorem get_whole {E : Env S N K} {ws : List (Write S K F)} {s : St S N K F} (h : Rel E ws s) {q : S} (ht : Touched ws q) :
    ∃ s' v, getItem E s (.whole q) = (s', .ok (.one v)) ∧ Rel E ws s' ∧ Shows E ws s'.heap q v := by
  obtain ⟨s', v, h1, h2, h3, _⟩ := readKey_whole h ht
  refine ⟨s', v, ?_, h2, h3⟩
  simp [getItem, getParsed, h.idx.var q ht, h1, Res.bind]

theorem get_elem {E : Env S N K} {ws : List (Write S K F)} {s : St S N K F} (h : Rel E ws s) {q : S} {n i : Nat} (hn : E.shape q = some n)
    (hi : i < n) (ht : Touched ws q) : getItem E s (.elem q i) = (s, .ok (.one (.cell (lastElem ws q i)))) := by
  simp [getItem, getParsed, h.idx.var q ht, readKey_elem h hn hi ht, Res.bind]

/-- Reading by name. -/
theorem get_name {E : Env S N K} {ws : List (Write S K F)} {s : St S N K F} (h : Rel E ws s) (n : N) :
    ∃ qs : List S, qs.Nodup ∧ (∀ q, q ∈ qs ↔ Touched ws q ∧ n ∈ E.names q) ∧ Rel E ws (getItem E s (.str n)).1 ∧
      Rel E ws (hasItem E s (.str n)).1 ∧ (hasItem E s (.str n)).2 = .ok (!qs.isEmpty) ∧
      (qs = [] → (getItem E s (.str n)).2 = .error .keyError) ∧
      (∀ q, qs = [q] → ∃ v, (getItem E s (.str n)).2 = .ok (.one v) ∧ Shows E ws (getItem E s (.str n)).1.heap q v) ∧
      (2 ≤ qs.length → ∃ vs, (getItem E s (.str n)).2 = .ok (.many vs) ∧ vs.map (·.1) = qs ∧
        ∀ qv ∈ vs, Shows E ws (getItem E s (.str n)).1.heap qv.1 qv.2) := by
  obtain ⟨km, hu, hi, hk⟩ := updateKeymap_spec h.idx
  have hr := rel_reindex h hi
  obtain ⟨qs, hqs⟩ : ∃ qs : List S, under km n = qs.map Obj.var := by
    have : ∀ l : List (Obj S N), (∀ o ∈ l, ∃ q, o = Obj.var q) → ∃ qs : List S, l = qs.map Obj.var := by
      intro l
      induction l with
      | nil => intro _; exact ⟨[], rfl⟩
      | cons o l ih =>
        intro hl
        obtain ⟨q, rfl⟩ := hl o (by simp)
        obtain ⟨qs, rfl⟩ := ih (fun o ho => hl o (by simp [ho]))
        exact ⟨q :: qs, rfl⟩
    exact this _ (hi.vr n)
  have hmem : ∀ q, q ∈ qs ↔ Touched ws q ∧ n ∈ E.names q := by
    intro q
    have := hk n (.var q)
    rw [hqs] at this
    simpa using this
  have hcont : km.contains (.str n) = !qs.isEmpty := by
    unfold PyDict.contains
    cases hg : PyDict.get? km (.str n) with
    | none =>
      have : under km n = [] := by unfold under; rw [hg]; rfl
      rw [hqs, List.map_eq_nil_iff] at this
      rw [this]; rfl
    | some l =>
      have hu : under km n = l := by unfold under; rw [hg]; rfl
      cases hq : qs with
      | nil => rw [hqs, hq] at hu; exact absurd (by rw [hg, ← hu]; rfl) (hi.ne n)
      | cons q qs => rfl
  have hget : getItem E s (.str n) = getParsed E ⟨s.heap, ⟨s.dict.store, km, [], s.dict.owned⟩⟩ (.str n) none := by
    simp only [getItem, hu, Res.bind]
  have hund : (PyDict.get? km (.str n)).getD [] = qs.map Obj.var := hqs
  refine ⟨qs, ?_, hmem, ?_, ?_, ?_, ?_, ?_, ?_⟩
  · have := hi.nd n
    rw [hqs] at this
    exact List.Nodup.of_map _ this
  · rw [hget]
    unfold getParsed
    dsimp only
    rw [hund]
    match qs, hmem, hcont with
    | [], _, hcont =>
      have : km.get? (.str n) = none := contains_eq_false.1 hcont
      simp only [List.map_nil, del_absent this]
      exact hr
    | [q], hmem, _ =>
      obtain ⟨s', v, g1, g2, g3, _⟩ := readKey_whole hr (((hmem q).1 (by simp)).1)
      simp only [List.map_cons, List.map_nil, g1, Res.bind]
      exact g2
    | q :: q' :: qs, hmem, _ =>
      obtain ⟨s', vs, g1, g2, g3, g4, _⟩ := readKeys_whole (q :: q' :: qs) hr (fun p hp => ((hmem p).1 hp).1)
      simp only [List.map_cons] at g1
      simp only [List.map_cons, g1, Res.bind]
      exact g2
  · simp only [hasItem, hu, Res.bind]
    exact hr
  · simp only [hasItem, hu, Res.bind, hcont]
  · rintro rfl
    rw [hget]
    unfold getParsed
    dsimp only
    rw [hund]
    rfl
  · rintro q rfl
    rw [hget]
    unfold getParsed
    dsimp only
    rw [hund]
    obtain ⟨s', v, g1, g2, g3, _⟩ := readKey_whole hr (((hmem q).1 (by simp)).1)
    simp only [List.map_cons, List.map_nil, g1, Res.bind]
    exact ⟨v, rfl, g3⟩
  · intro hl
    rw [hget]
    unfold getParsed
    dsimp only
    rw [hund]
    match qs, hmem, hl with
    | q :: q' :: qs, hmem, _ =>
      obtain ⟨s', vs, g1, g2, g3, g4, _⟩ := readKeys_whole (q :: q' :: qs) hr (fun p hp => ((hmem p).1 hp).1)
      simp only [List.map_cons] at g1
      simp only [List.map_cons, g1, Res.bind]
      exact ⟨vs, rfl, by simpa using g3, g4⟩

/-! ## Whole histories -/

theorem readKey_state (E : Env S N K) (s : St S N K F) (i : Nat) (o : Obj S N) : (readKey E s (some i) o).1 = s := by
  cases o with
  | str n => rfl
  | var k =>
    simp only [readKey, Option.isNone_some, Bool.false_eq_true, false_and, if_false, Res.bind]
    split
    · rfl
    · split
      · rfl
      · split
        · rfl
        · split <;> rfl

theorem op_step {E : Env S N K} {ws : List (Write S K F)} {s : St S N K F} (h : Rel E ws s) (o : Op S N K F)
    (hf : match o with | .write w => w.Fine E ws | _ => True) :
    ∃ s', runOp E s o = (s', .ok ()) ∧ Rel E (ws ++ writes [o]) s' := by
  cases o with
  | write w => exact write_step h w hf
  | get k =>
    refine ⟨_, rfl, ?_⟩
    rw [show writes [(.get k : Op S N K F)] = [] from rfl, List.append_nil]
    cases k with
    | whole q =>
      by_cases ht : Touched ws q
      · obtain ⟨s', v, h1, h2, _⟩ := get_whole h ht
        rw [h1]; exact h2
      · rw [getItem, get_untouched h ht]; exact h
    | elem q i =>
      by_cases ht : Touched ws q
      · have : (getItem E s (.elem q i)).1 = s := by
          simp only [getItem, getParsed, h.idx.var q ht, Option.getD_some]
          have := readKey_state E s i (.var q)
          cases hr : readKey E s (some i) (.var q) with
          | mk s1 e =>
            rw [hr] at this
            cases e <;> exact this
        rw [this]; exact h
      · rw [getItem, get_untouched h ht]; exact h
    | str n =>
      obtain ⟨_, _, _, h1, _⟩ := get_name h n
      exact h1
  | has k =>
    refine ⟨_, rfl, ?_⟩
    rw [show writes [(.has k : Op S N K F)] = [] from rfl, List.append_nil]
    cases k with
    | whole q => exact h
    | elem q i =>
      have : (hasItem E s (.elem q i)).1 = s := by
        simp only [hasItem]
        split
        · rfl
        · rfl
        · split
          · rfl
          · split <;> rfl
      rw [this]; exact h
    | str n =>
      obtain ⟨_, _, _, _, h1, _⟩ := get_name h n
      exact h1

theorem run_cons (E : Env S N K) {s s' : St S N K F} {o : Op S N K F} (h : runOp E s o = (s', .ok ())) (ops : List (Op S N K F)) :
    run E s (o :: ops) = run E s' ops := by
  unfold run
  rw [List.foldl_cons]
  simp only [Res.bind, h]

theorem run_from (E : Env S N K) (ops : List (Op S N K F)) : ∀ {ws : List (Write S K F)} {s : St S N K F}, Rel E ws s → FineFrom E ws ops →
    ∃ s', run E s ops = (s', .ok ()) ∧ Rel E (ws ++ writes ops) s' := by
  induction ops with
  | nil => intro ws s h _; exact ⟨s, rfl, by simpa [writes] using h⟩
  | cons o ops ih =>
    intro ws s h hf
    have hw : writes (o :: ops) = writes [o] ++ writes ops := by
      unfold writes
      rw [← List.filterMap_append]; rfl
    obtain ⟨s1, h1, h2⟩ := op_step h o (by cases o <;> first | exact hf.1 | exact trivial)
    obtain ⟨s2, h3, h4⟩ := ih h2 (by
      cases o with
      | write w => exact hf.2
      | get k =>
        rw [show writes [(.get k : Op S N K F)] = [] from rfl, List.append_nil]
        exact hf
      | has k =>
        rw [show writes [(.has k : Op S N K F)] = [] from rfl, List.append_nil]
        exact hf)
    exact ⟨s2, by rw [run_cons E h1]; exact h3, by rw [hw, ← List.append_assoc]; exact h4⟩

theorem run_rel (E : Env S N K) (heap : Heap K F) (ops : List (Op S N K F)) (hf : Fine E ops) :
    ∃ s, run E ⟨heap, empty⟩ ops = (s, .ok ()) ∧ Rel E (writes ops) s := by
  have := run_from E ops (rel_empty E heap) hf
  simpa using this

/-- What a user sees of a dict is what was last written to each variable by `ws`: reading and asking for elements, for scalars and whole
vectors, and for names. A name stands for the variables with that name that were written to: it reads as the value if there is exactly
one, and as a dict of all if there are several. -/
structure Agrees (E : Env S N K) (ws : List (Write S K F)) (s : St S N K F) : Prop where
  elem : ∀ q n i, E.shape q = some n → i < n →
    (Touched ws q → (getItem E s (.elem q i)).2 = .ok (.one (.cell (lastElem ws q i)))) ∧
    (¬ Touched ws q → (getItem E s (.elem q i)).2 = .error .keyError) ∧
    ∃ b, (hasItem E s (.elem q i)).2 = .ok b ∧ (b = true ↔ lastElem ws q i ≠ .nan)
  whole : ∀ q,
    (Touched ws q → ∃ s' v, getItem E s (.whole q) = (s', .ok (.one v)) ∧ Shows E ws s'.heap q v) ∧
    (¬ Touched ws q → (getItem E s (.whole q)).2 = .error .keyError) ∧
    ∃ b, (hasItem E s (.whole q)).2 = .ok b ∧ (b = true ↔ Touched ws q)
  name : ∀ n, ∃ qs : List S, qs.Nodup ∧
    (∀ q, q ∈ qs ↔ Touched ws q ∧ n ∈ E.names q) ∧ (hasItem E s (.str n)).2 = .ok (!qs.isEmpty) ∧
    (qs = [] → (getItem E s (.str n)).2 = .error .keyError) ∧
    (∀ q, qs = [q] → ∃ s' v, getItem E s (.str n) = (s', .ok (.one v)) ∧ Shows E ws s'.heap q v) ∧
    (2 ≤ qs.length → ∃ s' vs, getItem E s (.str n) = (s', .ok (.many vs)) ∧ vs.map (·.1) = qs ∧
      ∀ qv ∈ vs, Shows E ws s'.heap qv.1 qv.2)

theorem rel_agrees {E : Env S N K} {ws : List (Write S K F)} {s : St S N K F} (h2 : Rel E ws s) : Agrees E ws s := by
  refine ⟨?_, ?_, ?_⟩
  · intro q n i hn hi
    refine ⟨fun ht => by rw [get_elem h2 hn hi ht], fun ht => by rw [getItem, get_untouched h2 ht], ?_⟩
    obtain ⟨v1, v2, v3⟩ := h2.vec q n hn
    by_cases ht : Touched ws q
    · obtain ⟨a, ha, hat, hav⟩ := v3 ht
      obtain ⟨r, hr, hra⟩ := arrOf_some ha
      have hc : a.cells[i]? = some (lastElem ws q i) := by
        rw [cells_eq hat.len hav]
        simp [hi]
      simp only [hasItem, hr, hra, hc]
      refine ⟨_, rfl, ?_⟩
      cases lastElem ws q i <;> simp
    · have hg := get?_eq_none_of h2.wf (v2 ht) v1
      simp only [hasItem, hg]
      refine ⟨_, rfl, ?_⟩
      rw [lastElem_untouched ht, contains_eq_false.2 (h2.idx.novar q ht)]
      simp
  · intro q
    refine ⟨?_, fun ht => by rw [getItem, get_untouched h2 ht], _, rfl, ?_⟩
    · intro ht
      obtain ⟨s', v, g1, _, g3⟩ := get_whole h2 ht
      exact ⟨s', v, g1, g3⟩
    · rw [Bool.or_eq_true, rel_contains h2]
      constructor
      · rintro (h | h)
        · exact h
        · by_contra ht
          rw [contains_eq_false.2 (h2.idx.novar q ht)] at h
          cases h
      · exact Or.inl
  · intro n
    obtain ⟨qs, g1, g2, _, _, g5, g6, g7, g8⟩ := get_name h2 n
    refine ⟨qs, g1, g2, g5, g6, ?_, ?_⟩
    · intro q hq
      obtain ⟨v, hv, hs⟩ := g7 q hq
      exact ⟨_, v, Prod.ext rfl hv, hs⟩
    · intro hl
      obtain ⟨vs, hv, hs⟩ := g8 hl
      exact ⟨_, vs, Prod.ext rfl hv, hs⟩

end KD

section C23
open KD
variable {S N K F : Type} [DecidableEq S] [DecidableEq N]

/-- C23 for fine operations: any sequence of them succeeds, and afterwards every element, variable and name reads as what was last written
to it, and membership tells whether there is such a value. -/
theorem C23_map_partial (E : Env S N K) (heap : Heap K F) (ops : List (Op S N K F)) (hf : Fine E ops) :
    ∃ s, run E ⟨heap, empty⟩ ops = (s, .ok ()) ∧ Agrees E (writes ops) s := by
  obtain ⟨s, h1, h2⟩ := run_rel E heap ops hf
  exact ⟨s, h1, rel_agrees h2⟩

/-- The hypotheses can be met: writes and reads in turn. -/
example : Fine (F := Unit) kdEnv [.write (.elem "x" 0 (.num 2)), .get (.str "x"), .write (.arr "x" .f64 [.nan, .num 3]),
    .write (.scalar "z" (.num (1 / 10))), .write (.elem "x" 1 (.fn ()))] := by
  refine ⟨⟨⟨2, rfl, by decide⟩, by show kdEnv.r32 2 = 2; decide +kernel⟩, ⟨rfl, ?_, fun _ => ⟨?_, ?_⟩⟩, rfl, ⟨⟨2, rfl, by decide⟩, trivial⟩, trivial⟩
  · intro c hc
    simp only [List.mem_cons, List.not_mem_nil, or_false] at hc
    rcases hc with rfl | rfl
    · trivial
    · show kdEnv.r32 3 = 3
      decide +kernel
  · intro c hc
    simp only [List.mem_cons, List.not_mem_nil, or_false] at hc
    rcases hc with rfl | rfl <;> trivial
  · intro i hi
    have : i < 2 := hi
    match i, this with
    | 0, _ => trivial
    | 1, _ => trivial

/-- C23 fails for a number written to a whole vector: it is stored in single precision. -/
theorem C23_single_fails : (getItem kdEnv (setItem kdEnv kd0 (.whole "x") (.one (.num (1 / 10)))).1 (.elem "x" 0)).2 ≠
    .ok (.one (.cell (.num (1 / 10)))) := by decide +kernel

/-- C23 fails after a list of integers: a fraction written to an element later is cut off. -/
theorem C23_integers_fails :
    let s := setItem kdEnv kd0 (.whole "x") (.list [.num 1, .num 2] true)
    let s := setItem kdEnv s.1 (.elem "x" 0) (.one (.num (1 / 2)))
    s.2 = .ok () ∧ (getItem kdEnv s.1 (.elem "x" 0)).2 = .ok (.one (.cell (.num 0))) := by decide +kernel

/-- C23 fails after a sweep is given to a whole vector: elements can be neither read nor written nor asked for. -/
theorem C23_sweep_fails :
    let s := setItem kdEnv kd0 (.whole "x") (.one (.sweep ()))
    s.2 = .ok () ∧ (getItem kdEnv s.1 (.elem "x" 0)).2 = .error .typeError ∧ (hasItem kdEnv s.1 (.elem "x" 0)).2 = .error .typeError ∧
    (setItem kdEnv s.1 (.elem "x" 0) (.one (.num 1))).2 = .error .typeError := by decide +kernel

/-- C23 fails when an array of numbers replaces functions. -/
theorem C23_functions_fails :
    let s := setItem kdEnv kd0 (.elem "x" 0) (.one (.fn ()))
    (setItem kdEnv ⟨s.1.heap ++ [⟨.f64, [.num 1, .num 2]⟩], s.1.dict⟩ (.whole "x") (.arr s.1.heap.length)).2 = .error .typeError := by
  decide +kernel

/-- C23 fails when one array is given to two vectors: a write to one changes the other. -/
theorem C23_shared_fails :
    let s0 : St String String ℚ Unit := ⟨[⟨.f64, [.num 1, .num 2]⟩], empty⟩
    let s := setItem kdEnv (setItem kdEnv s0 (.whole "x") (.arr 0)).1 (.whole "y") (.arr 0)
    let s' := setItem kdEnv s.1 (.elem "x" 0) (.one (.num 9))
    (getItem kdEnv s.1 (.elem "y" 0)).2 = .ok (.one (.cell (.num 1))) ∧ (getItem kdEnv s'.1 (.elem "y" 0)).2 = .ok (.one (.cell (.num 9))) := by
  decide +kernel

/-- C23 fails after a failed write: giving a function to a vector raises, and then the vector is reported as present but cannot be read,
and its elements cannot be written. -/
theorem C23_failed_write_fails :
    let s := setItem kdEnv kd0 (.whole "x") (.one (.fn ()))
    s.2 = .error .typeError ∧ (hasItem kdEnv s.1 (.whole "x")).2 = .ok true ∧ (getItem kdEnv s.1 (.whole "x")).2 = .error .keyError ∧
    (setItem kdEnv s.1 (.elem "x" 0) (.one (.num 1))).2 = .error .keyError := by decide +kernel

/-- C23 fails for strings as new keys, which the documentation of `KeyMap` allows: the write raises, and afterwards every lookup by name
raises. -/
theorem C23_string_fails :
    let s := setItem kdEnv (setItem kdEnv kd0 (.whole "z") (.one (.num 1))).1 (.str "foo") (.one (.num 2))
    s.2 = .error .attributeError ∧ (getItem kdEnv s.1 (.str "z")).2 = .error .attributeError ∧
    (hasItem kdEnv s.1 (.str "z")).2 = .error .attributeError := by decide +kernel

end C23

/-! ## C25: deletion -/

namespace KD
variable {S N K F : Type} [DecidableEq S] [DecidableEq N]

theorem get?_delO {d : PyDict (Obj S N) (List (Obj S N))} (h : WF d) (k q : Obj S N) :
    PyDict.get? (PyDict.del d k) q = if q = k then none else PyDict.get? d q := by
  rw [get?_del h]
  by_cases hq : q = k
  · subst hq; simp
  · rw [if_neg hq, if_neg (by simpa using fun h' => hq h'.symm)]

theorem get?_delS {d : PyDict S (Val K F)} (h : WF d) (k q : S) :
    PyDict.get? (PyDict.del d k) q = if q = k then none else PyDict.get? d q := by
  rw [get?_del h]
  by_cases hq : q = k
  · subst hq; simp
  · rw [if_neg hq, if_neg (by simpa using fun h' => hq h'.symm)]

/-- The loop over the names of a deleted variable. -/
theorem unmapNames (q : S) (ns : List N) (hnd : ns.Nodup) : ∀ km : PyDict (Obj S N) (List (Obj S N)), WF km →
    (∀ n ∈ ns, Obj.var q ∈ under km n) → ∃ km', (ns.map Obj.str).foldlM (unmap (some q)) km = .ok km' ∧ WF km' ∧
      (∀ p, km'.get? (.var p) = km.get? (.var p)) ∧
      ∀ n, km'.get? (.str n) = if n ∈ ns then (if (under km n).length = 1 then none else some ((under km n).erase (.var q))) else
        km.get? (.str n) := by
  induction ns with
  | nil => intro km hw _; exact ⟨km, rfl, hw, fun _ => rfl, fun _ => rfl⟩
  | cons m ns ih =>
    intro km hw hm
    rw [List.nodup_cons] at hnd
    have hq := hm m (by simp)
    obtain ⟨l, hl⟩ : ∃ l, PyDict.get? km (.str m) = some l := by
      unfold under at hq
      cases hg : PyDict.get? km (.str m) with
      | none => rw [hg] at hq; cases hq
      | some l => exact ⟨l, rfl⟩
    have hu : under km m = l := by unfold under; rw [hl]; rfl
    rw [hu] at hq
    obtain ⟨km1, h1, hw1, hv1, hs1⟩ : ∃ km1, unmap (some q) km (.str m) = .ok km1 ∧ WF km1 ∧
        (∀ p, km1.get? (.var p) = km.get? (.var p)) ∧
        ∀ n, km1.get? (.str n) = if n = m then (if l.length = 1 then none else some (l.erase (.var q))) else km.get? (.str n) := by
      unfold unmap
      rw [hl]
      dsimp only
      by_cases h1 : l.length = 1
      · rw [if_pos h1]
        refine ⟨_, rfl, wf_del hw _, ?_, ?_⟩
        · intro p; rw [get?_delO hw, if_neg (by simp)]
        · intro n
          rw [get?_delO hw]
          by_cases hn : n = m
          · rw [if_pos (by rw [hn]), if_pos hn, if_pos h1]
          · rw [if_neg (by simpa using hn), if_neg hn]
      · rw [if_neg h1, if_pos hq]
        refine ⟨_, rfl, wf_set hw _ _, ?_, ?_⟩
        · intro p; rw [get?_setO, if_neg (by simp)]
        · intro n
          rw [get?_setO]
          by_cases hn : n = m
          · rw [if_pos (by rw [hn]), if_pos hn, if_neg h1]
          · rw [if_neg (by simpa using hn), if_neg hn]
    have hu1 : ∀ n, n ≠ m → under km1 n = under km n := by
      intro n hn; unfold under; rw [hs1, if_neg hn]
    obtain ⟨km', i1, i2, i3, i4⟩ := ih hnd.2 km1 hw1 (by
      intro n hn
      rw [hu1 n (by rintro rfl; exact hnd.1 hn)]
      exact hm n (by simp [hn]))
    refine ⟨km', ?_, i2, fun p => (i3 p).trans (hv1 p), ?_⟩
    · rw [List.map_cons, List.foldlM_cons, h1]
      exact i1
    · intro n
      rw [i4 n]
      by_cases hn : n = m
      · subst hn
        rw [if_neg hnd.1, hs1, if_pos rfl, if_pos List.mem_cons_self, hu]
      · rw [hu1 n hn, hs1, if_neg hn]
        simp [hn]

/-- Removing a variable from a complete index. -/
theorem idx_unmap {E : Env S N K} {km : PyDict (Obj S N) (List (Obj S N))} {P : S → Prop} (h : Idx E km [] P) (q : S) (hq : P q)
    (hnd : (E.names q).Nodup) : ∃ km', (Obj.var q :: (E.names q).map Obj.str).foldlM (unmap (some q)) km = .ok km' ∧
      Idx E km' [] (fun p => p ≠ q ∧ P p) := by
  have hin : ∀ n ∈ E.names q, Obj.var q ∈ under km n := by
    intro n hn
    rcases (h.nm n q).2 ⟨hq, hn⟩ with h1 | ⟨h1, _⟩
    · exact h1
    · cases h1
  have hu1 : ∀ n, under (PyDict.del km (.var q)) n = under km n := by
    intro n; unfold under; rw [get?_delO h.wf, if_neg (by simp)]
  obtain ⟨km', i1, i2, i3, i4⟩ := unmapNames q (E.names q) hnd (km.del (.var q)) (wf_del h.wf _) (by
    intro n hn; rw [hu1]; exact hin n hn)
  have hstr : ∀ n, km'.get? (.str n) = if n ∈ E.names q then (if (under km n).length = 1 then none else
      some ((under km n).erase (.var q))) else km.get? (.str n) := by
    intro n
    rw [i4, hu1, get?_delO h.wf, if_neg (show ¬ Obj.str n = Obj.var q by simp)]
  have hund : ∀ n, under km' n = (under km n).erase (.var q) := by
    intro n
    conv_lhs => unfold under
    rw [hstr]
    by_cases hn : n ∈ E.names q
    · rw [if_pos hn]
      by_cases h1 : (under km n).length = 1
      · rw [if_pos h1]
        obtain ⟨o, ho⟩ := List.length_eq_one_iff.1 h1
        have := hin n hn
        rw [ho, List.mem_singleton] at this
        rw [ho, ← this]
        simp
      · rw [if_neg h1]; rfl
    · rw [if_neg hn]
      have : Obj.var q ∉ under km n := fun hm => hn ((h.nm n q).1 (Or.inl hm)).2
      rw [List.erase_of_not_mem this]; rfl
  have hmem : ∀ n o, o ∈ under km' n ↔ o ≠ .var q ∧ o ∈ under km n := by
    intro n o
    rw [hund]
    exact (h.nd n).mem_erase_iff
  refine ⟨km', ?_, i2, ?_, ?_, by simp, ?_, ?_, ?_, ?_⟩
  · rw [List.foldlM_cons]
    unfold unmap
    rw [h.var q hq]
    exact i1
  · rintro p ⟨hp, hP⟩
    rw [i3, get?_delO h.wf, if_neg (by simpa using hp)]
    exact h.var p hP
  · intro p hp
    rw [i3, get?_delO h.wf]
    by_cases he : p = q
    · rw [if_pos (by rw [he])]
    · rw [if_neg (by simpa using he)]
      exact h.novar p (fun hP => hp ⟨he, hP⟩)
  · intro n p
    rw [hmem]
    have := h.nm n p
    constructor
    · rintro (⟨h1, h2⟩ | ⟨h1, _⟩)
      · have := this.1 (Or.inl h2)
        exact ⟨⟨fun he => h1 (by rw [he]), this.1⟩, this.2⟩
      · cases h1
    · rintro ⟨⟨h1, h2⟩, h3⟩
      rcases this.2 ⟨h2, h3⟩ with h4 | ⟨h4, _⟩
      · exact Or.inl ⟨by simpa using h1, h4⟩
      · cases h4
  · intro n o ho
    exact h.vr n o ((hmem n o).1 ho).2
  · intro n
    rw [hund]
    exact (h.nd n).erase _
  · intro n hn
    rw [hstr] at hn
    by_cases hnn : n ∈ E.names q
    · rw [if_pos hnn] at hn
      by_cases h1 : (under km n).length = 1
      · rw [if_pos h1] at hn; cases hn
      · rw [if_neg h1] at hn
        have hl := congrArg List.length (Option.some.inj hn)
        rw [List.length_erase_of_mem (hin n hnn)] at hl
        have hp := List.length_pos_of_mem (hin n hnn)
        simp at hl
        omega
    · rw [if_neg hnn] at hn
      exact h.ne n hn

/-- The writes that do not concern the variables in question. -/
def without (p : S → Bool) (ws : List (Write S K F)) : List (Write S K F) := ws.filter (fun w => !p w.target)

theorem touched_without {p : S → Bool} {ws : List (Write S K F)} {q : S} : Touched (without p ws) q ↔ p q = false ∧ Touched ws q := by
  unfold Touched without
  constructor
  · rintro ⟨w, hw, rfl⟩
    obtain ⟨h1, h2⟩ := List.mem_filter.1 hw
    exact ⟨by simpa using h2, w, h1, rfl⟩
  · rintro ⟨hp, w, hw, rfl⟩
    exact ⟨w, List.mem_filter.2 ⟨hw, by simpa using hp⟩, rfl⟩

theorem lastElem_without {p : S → Bool} (ws : List (Write S K F)) {q : S} (hq : p q = false) (i : Nat) :
    lastElem (without p ws) q i = lastElem ws q i := by
  induction ws using List.reverseRecOn with
  | nil => rfl
  | append_singleton ws w ih =>
    unfold without at *
    rw [List.filter_append, lastElem_append]
    by_cases hw : p w.target = true
    · have : ([w].filter (fun w => !p w.target)) = [] := by simp [hw]
      rw [this, List.append_nil, ih, onElem_other (by rintro rfl; rw [hq] at hw; cases hw)]
    · have : ([w].filter (fun w => !p w.target)) = [w] := by simp [hw]
      rw [this, lastElem_append, ih]

theorem lastScalar_without {p : S → Bool} (ws : List (Write S K F)) {q : S} (hq : p q = false) :
    lastScalar (without p ws) q = lastScalar ws q := by
  induction ws using List.reverseRecOn with
  | nil => rfl
  | append_singleton ws w ih =>
    unfold without at *
    rw [List.filter_append, lastScalar_append]
    by_cases hw : p w.target = true
    · have : ([w].filter (fun w => !p w.target)) = [] := by simp [hw]
      rw [this, List.append_nil, ih, onScalar_other (by rintro rfl; rw [hq] at hw; cases hw)]
    · have : ([w].filter (fun w => !p w.target)) = [w] := by simp [hw]
      rw [this, lastScalar_append, ih]

theorem lastScalar_untouched {ws : List (Write S K F)} {s : S} (h : ¬ Touched ws s) : lastScalar ws s = none := by
  induction ws using List.reverseRecOn with
  | nil => rfl
  | append_singleton ws w ih =>
    rw [touched_append, not_or] at h
    rw [lastScalar_append, ih h.2, onScalar_other h.1]

/-- Deleting a variable with a complete index leaves what there would be without the writes to it. -/
theorem del_whole {E : Env S N K} {ws : List (Write S K F)} {s : St S N K F} (h : Rel E ws s) (hu : s.dict.unmapped = []) {q : S}
    (ht : Touched ws q) (hnd : (E.names q).Nodup) :
    ∃ s', delVar E s q none = (s', .ok ()) ∧ Rel E (without (fun p => decide (p = q)) ws) s' ∧ s'.dict.unmapped = [] := by
  have hi := h.idx
  rw [hu] at hi
  obtain ⟨km, k1, k2⟩ := idx_unmap hi q ht hnd
  have hg := fun p => get?_delS (K := K) (F := F) h.wf.uniq q p
  refine ⟨⟨s.heap, ⟨s.dict.store.del q, km, s.dict.unmapped, s.dict.owned⟩⟩, ?_, ?_, hu⟩
  · unfold delVar
    dsimp only
    rw [if_pos ((rel_contains h q).2 ht)]
    unfold unmapAll
    dsimp only
    rw [k1]
  · refine ⟨⟨?_, ?_, wf_del h.wf.uniq _⟩, ?_, ?_, ?_⟩
    · intro p r hp
      dsimp only at hp ⊢
      rw [hg] at hp
      split_ifs at hp
      exact h.wf.valid p r hp
    · intro p p' r hp hp'
      dsimp only at hp hp'
      rw [hg] at hp hp'
      split_ifs at hp hp'
      exact h.wf.inj p p' r hp hp'
    · dsimp only
      rw [hu]
      exact k2.congr (fun p => by rw [touched_without]; simp)
    · intro p hp
      obtain ⟨a1, a2, a3⟩ := h.scal p hp
      by_cases hpq : p = q
      · subst hpq
        have hnt : ¬ Touched (without (fun p' => decide (p' = p)) ws) p := by rw [touched_without]; simp
        have hget : PyDict.get? (PyDict.del s.dict.store p) p = none := by rw [hg, if_pos rfl]
        refine ⟨?_, ?_, ?_⟩
        · rw [lastScalar_untouched hnt]; unfold cellOf; dsimp only; rw [hget]
        · unfold arrOf; dsimp only; rw [hget]
        · rw [lastScalar_untouched hnt]; simp [hnt]
      · have hf : (fun p' => decide (p' = q)) p = false := by simpa using hpq
        have hget : PyDict.get? (PyDict.del s.dict.store q) p = PyDict.get? s.dict.store p := by rw [hg, if_neg hpq]
        rw [lastScalar_without ws hf, touched_without]
        refine ⟨?_, ?_, ?_⟩
        · rw [← a1]; unfold cellOf; dsimp only; rw [hget]
        · rw [← a2]; unfold arrOf; dsimp only; rw [hget]
        · rw [a3]; simp [hpq]
    · intro p n hp
      obtain ⟨a1, a2, a3⟩ := h.vec p n hp
      by_cases hpq : p = q
      · subst hpq
        have hnt : ¬ Touched (without (fun p' => decide (p' = p)) ws) p := by rw [touched_without]; simp
        have hget : PyDict.get? (PyDict.del s.dict.store p) p = none := by rw [hg, if_pos rfl]
        refine ⟨?_, ?_, fun h' => absurd h' hnt⟩
        · unfold cellOf; dsimp only; rw [hget]
        · intro _; unfold arrOf; dsimp only; rw [hget]
      · have hf : (fun p' => decide (p' = q)) p = false := by simpa using hpq
        have hget : PyDict.get? (PyDict.del s.dict.store q) p = PyDict.get? s.dict.store p := by rw [hg, if_neg hpq]
        have hc : ∀ km um, cellOf (⟨s.heap, ⟨s.dict.store.del q, km, um, s.dict.owned⟩⟩ : St S N K F) p = cellOf s p := by
          intro km um; unfold cellOf; dsimp only; rw [hget]
        have ha : ∀ km um, arrOf (⟨s.heap, ⟨s.dict.store.del q, km, um, s.dict.owned⟩⟩ : St S N K F) p = arrOf s p := by
          intro km um; unfold arrOf; dsimp only; rw [hget]
        rw [touched_without, hc, ha]
        refine ⟨a1, fun h' => a2 (fun ht' => h' ⟨hf, ht'⟩), fun h' => ?_⟩
        obtain ⟨a, b1, b2, b3⟩ := a3 h'.2
        exact ⟨a, b1, b2, fun i hi => by rw [lastElem_without ws hf]; exact b3 i hi⟩

theorem without_without (p p' : S → Bool) (ws : List (Write S K F)) : without p' (without p ws) = without (fun q => p q || p' q) ws := by
  unfold without
  rw [List.filter_filter]
  congr 1
  funext w
  show (!p' w.target && !p w.target) = !(p w.target || p' w.target)
  cases p w.target <;> cases p' w.target <;> rfl

theorem without_congr {p p' : S → Bool} {ws : List (Write S K F)} (h : ∀ q, Touched ws q → p q = p' q) : without p ws = without p' ws := by
  unfold without
  apply List.filter_congr
  intro w hw
  rw [h w.target ⟨w, hw, rfl⟩]

theorem without_false (ws : List (Write S K F)) : without (fun _ => false) ws = ws := by
  unfold without
  simp

/-- Deleting several variables. -/
theorem del_keys {E : Env S N K} (hnd : ∀ q, (E.names q).Nodup) (qs : List S) : ∀ {ws : List (Write S K F)} {s : St S N K F}, qs.Nodup →
    Rel E ws s → s.dict.unmapped = [] → (∀ q ∈ qs, Touched ws q) →
    ∃ s', delKeys E s (qs.map Obj.var) = (s', .ok ()) ∧ Rel E (without (fun p => decide (p ∈ qs)) ws) s' := by
  induction qs with
  | nil =>
    intro ws s _ h _ _
    refine ⟨s, rfl, ?_⟩
    have : without (fun p => decide (p ∈ ([] : List S))) ws = ws := by
      rw [without_congr (p' := fun _ => false) (by simp), without_false]
    rw [this]; exact h
  | cons q qs ih =>
    intro ws s hq h hu ht
    rw [List.nodup_cons] at hq
    obtain ⟨s1, i1, i2, i3⟩ := del_whole h hu (ht q (by simp)) (hnd q)
    obtain ⟨s2, j1, j2⟩ := ih hq.2 i2 i3 (by
      intro p hp
      rw [touched_without]
      refine ⟨?_, ht p (by simp [hp])⟩
      have : p ≠ q := by rintro rfl; exact hq.1 hp
      simpa using this)
    refine ⟨s2, ?_, ?_⟩
    · rw [List.map_cons, delKeys, i1]
      exact j1
    · rw [without_without] at j2
      rw [without_congr (p' := fun p => decide (p = q) || decide (p ∈ qs)) (by intro p _; simp)]
      exact j2

/-- Deleting a name. -/
theorem del_name {E : Env S N K} (hnd : ∀ q, (E.names q).Nodup) {ws : List (Write S K F)} {s : St S N K F} (h : Rel E ws s) (n : N)
    {q : S} (ht : Touched ws q) (hn : n ∈ E.names q) :
    ∃ s', delItem E s (.str n) = (s', .ok ()) ∧ Rel E (without (fun p => decide (n ∈ E.names p)) ws) s' := by
  obtain ⟨km, hu, hi, hk⟩ := updateKeymap_spec h.idx
  have hr := rel_reindex h hi
  obtain ⟨qs, hqs⟩ : ∃ qs : List S, under km n = qs.map Obj.var := by
    have : ∀ l : List (Obj S N), (∀ o ∈ l, ∃ q, o = Obj.var q) → ∃ qs : List S, l = qs.map Obj.var := by
      intro l
      induction l with
      | nil => intro _; exact ⟨[], rfl⟩
      | cons o l ih =>
        intro hl
        obtain ⟨q, rfl⟩ := hl o (by simp)
        obtain ⟨qs, rfl⟩ := ih (fun o ho => hl o (by simp [ho]))
        exact ⟨q :: qs, rfl⟩
    exact this _ (hi.vr n)
  have hmem : ∀ q, q ∈ qs ↔ Touched ws q ∧ n ∈ E.names q := by
    intro q
    have := hk n (.var q)
    rw [hqs] at this
    simpa using this
  have hqn : qs.Nodup := by
    have := hi.nd n
    rw [hqs] at this
    exact List.Nodup.of_map _ this
  obtain ⟨s', d1, d2⟩ := del_keys hnd qs hqn hr rfl (fun q hq => ((hmem q).1 hq).1)
  refine ⟨s', ?_, ?_⟩
  · simp only [delItem, hu, Res.bind]
    have hund : (PyDict.get? km (.str n)).getD [] = qs.map Obj.var := hqs
    rw [hund]
    cases hq : qs with
    | nil =>
      have := (hmem q).2 ⟨ht, hn⟩
      rw [hq] at this; cases this
    | cons p ps =>
      rw [hq] at d1
      rw [List.map_cons] at d1 ⊢
      exact d1
  · rw [without_congr (p' := fun p => decide (p ∈ qs)) (by
      intro p hp
      have := hmem p
      simp [hp] at this
      simp [this])]
    exact d2

end KD

section C25
open KD
variable {S N K F : Type} [DecidableEq S] [DecidableEq N]

/-- C25 for names: after any fine operations, deleting a name that some written variable has succeeds, and the dict then is as if the
variables with that name had never been written: none of their values remain under any key, and everything else reads as before. -/
theorem C25_name_partial (E : Env S N K) (hnd : ∀ q, (E.names q).Nodup) (heap : Heap K F) (ops : List (Op S N K F)) (hf : Fine E ops)
    (n : N) (hn : ∃ q, Touched (writes ops) q ∧ n ∈ E.names q) :
    ∃ s s', run E ⟨heap, empty⟩ ops = (s, .ok ()) ∧ delItem E s (.str n) = (s', .ok ()) ∧
      Agrees E ((writes ops).filter (fun w => !decide (n ∈ E.names w.target))) s' := by
  obtain ⟨s, h1, h2⟩ := run_rel E heap ops hf
  obtain ⟨q, hq, hqn⟩ := hn
  obtain ⟨s', d1, d2⟩ := del_name hnd h2 n hq hqn
  exact ⟨s, s', h1, d1, rel_agrees d2⟩

/-- C25 for variables: the same for deleting a scalar or a whole vector, if a name was looked up after the last write (which completes the
index of names). -/
theorem C25_whole_partial (E : Env S N K) (hnd : ∀ q, (E.names q).Nodup) (heap : Heap K F) (ops : List (Op S N K F)) (hf : Fine E ops)
    (n : N) (q : S) (hq : Touched (writes ops) q) :
    ∃ s s', run E ⟨heap, empty⟩ ops = (s, .ok ()) ∧ delItem E (hasItem E s (.str n)).1 (.whole q) = (s', .ok ()) ∧
      Agrees E ((writes ops).filter (fun w => !decide (w.target = q))) s' := by
  obtain ⟨s, h1, h2⟩ := run_rel E heap ops hf
  obtain ⟨km, hu, hi, _⟩ := updateKeymap_spec h2.idx
  have hs : (hasItem E s (.str n)).1 = ⟨s.heap, ⟨s.dict.store, km, [], s.dict.owned⟩⟩ := by
    simp only [hasItem, hu, Res.bind]
  obtain ⟨s', d1, d2, _⟩ := del_whole (rel_reindex h2 hi) rfl hq (hnd q)
  exact ⟨s, s', h1, by rw [hs]; exact d1, rel_agrees d2⟩

/-- The hypotheses can be met: `z` and `x` are written and `x` is deleted by name. -/
example : (∀ q, (kdEnv.names q).Nodup) ∧ Fine (F := Unit) kdEnv [.write (.elem "x" 0 (.num 2)), .write (.scalar "z" (.num (1 / 10)))] ∧
    ∃ q, Touched (writes (N := String) (F := Unit) [.write (.elem "x" 0 (.num 2)), .write (.scalar "z" (.num (1 / 10 : ℚ)))]) q ∧
      "x" ∈ kdEnv.names q :=
  ⟨fun q => List.nodup_singleton q, ⟨⟨⟨2, rfl, by decide⟩, by show kdEnv.r32 2 = 2; decide +kernel⟩, rfl, trivial⟩,
    "x", ⟨_, List.mem_cons_self, rfl⟩, List.mem_singleton_self _⟩

/-- C25 fails for one element of a vector. After deleting `x[0]`, `x[1]` is reported as present but reading it raises `KeyError`, and a
new value for `x[0]` wipes out `x[1]`. -/
theorem C25_element_fails :
    let s := setItem kdEnv (setItem kdEnv kd0 (.elem "x" 0) (.one (.num 1))).1 (.elem "x" 1) (.one (.num 2))
    let d := delItem kdEnv s.1 (.elem "x" 0)
    let w := setItem kdEnv d.1 (.elem "x" 0) (.one (.num 5))
    s.2 = .ok () ∧ (getItem kdEnv s.1 (.elem "x" 1)).2 = .ok (.one (.cell (.num 2))) ∧ d.2 = .ok () ∧
    (hasItem kdEnv d.1 (.elem "x" 1)).2 = .ok true ∧ (getItem kdEnv d.1 (.elem "x" 1)).2 = .error .keyError ∧
    w.2 = .ok () ∧ (getItem kdEnv w.1 (.elem "x" 1)).2 = .ok (.one (.cell .nan)) := by decide +kernel

/-- C25 fails for a variable deleted before any lookup by name: its name is still reported as present, and reading it raises. -/
theorem C25_unmapped_fails :
    let s := setItem kdEnv kd0 (.whole "z") (.one (.num 1))
    let d := delItem kdEnv s.1 (.whole "z")
    d.2 = .ok () ∧ (hasItem kdEnv d.1 (.str "z")).2 = .ok true ∧ (getItem kdEnv d.1 (.str "z")).2 = .error .keyError := by decide +kernel

/-- C25 fails for a missing name: the deletion raises `KeyError`, but afterwards the name is reported as present. -/
theorem C25_missing_fails :
    let d := delItem kdEnv kd0 (.str "nope")
    (hasItem kdEnv kd0 (.str "nope")).2 = .ok false ∧ d.2 = .error .keyError ∧ (hasItem kdEnv d.1 (.str "nope")).2 = .ok true := by
  decide +kernel

/-- C25 fails for an element of a vector that was set to a list of integers: there is no integer NaN. -/
theorem C25_integers_fails :
    let s := setItem kdEnv kd0 (.whole "x") (.list [.num 1, .num 2] true)
    (delItem kdEnv s.1 (.elem "x" 0)).2 = .error .valueError := by decide +kernel

/-- Two vectors with a common name. -/
def kdTwins : Env String String ℚ := ⟨fun _ => some 2, fun s => [s, "both"], id, fun k => Rat.floor k⟩

/-- C25 fails for an element of a vector that shares a name with another: after the element is gone, `KeyError` is raised. -/
theorem C25_twins_fails :
    let s := setItem kdTwins (setItem kdTwins kd0 (.elem "x" 0) (.one (.num 1))).1 (.elem "y" 0) (.one (.num 2))
    let s := hasItem kdTwins s.1 (.str "both")
    let d := delItem kdTwins s.1 (.elem "x" 0)
    s.2 = .ok true ∧ d.2 = .error .keyError ∧ (getItem kdTwins s.1 (.elem "x" 0)).2 = .ok (.one (.cell (.num 1))) ∧
    (getItem kdTwins d.1 (.elem "x" 0)).2 = .error .keyError := by decide +kernel

end C25
end Verif
