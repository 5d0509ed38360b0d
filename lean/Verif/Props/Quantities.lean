import Verif.Model.Quantities
import Verif.Spec.Quantities
import Verif.Props.KeyDict

/-! C94: values with units. -/

set_option linter.unusedSectionVars false

namespace Verif
open PyDict KD

namespace KD
variable {S N D K F : Type} [DecidableEq S] [DecidableEq N] [AddCommGroup D] [DecidableEq D] [Field K]

/-- One operation; exceptions of reads are caught. -/
def runOpU (E : Env S N K) (units : S → Option (UnitQ D K)) (s : St S N K F) : UOp S N D K F → Res S N K F Unit
  | .write (.elem k i g) => setGiven E units s (.elem k i) (.one g)
  | .write (.fill k g) => setGiven E units s (.whole k) (.one g)
  | .write (.list k gs) => setGiven E units s (.whole k) (.list gs)
  | .write (.arr k xs u) => setGiven E units s (.whole k) (.qarr xs u)
  | .write (.scalar k g) => setGiven E units s (.whole k) (.one g)
  | .get k => ((getItem E s k).1, .ok ())
  | .has k => ((hasItem E s k).1, .ok ())
  | .call k => ((call E units s k).1, .ok ())

/-- A sequence of operations, up to the first exception of a write. -/
def runU (E : Env S N K) (units : S → Option (UnitQ D K)) (s : St S N K F) (ops : List (UOp S N D K F)) : Res S N K F Unit :=
  ops.foldl (fun r o => r.bind (fun s _ => runOpU E units s o)) (s, .ok ())

theorem unitOf_eq (ku : Option (UnitQ D K)) : ku.getD dimless = unitOf ku := by cases ku <;> rfl

theorem toKey_ok {ku : Option (UnitQ D K)} {u : UnitQ D K} (h : u.dim = (unitOf ku).dim) (x : K) : toKey ku x u = .ok (x * (u.scale / (unitOf ku).scale)) := by
  unfold toKey UnitQ.convert
  rw [unitOf_eq, if_pos h]
  rfl

theorem toKey_error {ku : Option (UnitQ D K)} {u : UnitQ D K} (h : u.dim ≠ (unitOf ku).dim) (x : K) : toKey ku x u = .error .dimensionality := by
  unfold toKey UnitQ.convert
  rw [unitOf_eq, if_neg h]
  rfl

theorem clean_ok {ku : Option (UnitQ D K)} {g : Given D K F} (h : g.Fits ku) : clean ku g = .ok (g.number ku) := by
  cases g with
  | cell c => rfl
  | qty x u =>
    unfold clean
    dsimp only
    rw [toKey_ok h]
    rfl
  | mono x u =>
    cases u with
    | none => rfl
    | some u =>
      unfold clean
      dsimp only
      rw [toKey_ok h]
      rfl

theorem clean_error {ku : Option (UnitQ D K)} {g : Given D K F} (h : ¬ g.Fits ku) : clean ku g = .error .dimensionality := by
  cases g with
  | cell c => exact absurd trivial h
  | qty x u =>
    unfold clean
    dsimp only
    rw [toKey_error h]
    rfl
  | mono x u =>
    cases u with
    | none => exact absurd trivial h
    | some u =>
      unfold clean
      dsimp only
      rw [toKey_error h]
      rfl

theorem mapM_ok {α β : Type} {f : α → Except Err β} {g : α → β} : ∀ {l : List α}, (∀ a ∈ l, f a = .ok (g a)) → l.mapM f = .ok (l.map g)
  | [], _ => rfl
  | a :: l, h => by
    rw [List.mapM_cons, h a (by simp), mapM_ok (l := l) (fun b hb => h b (by simp [hb]))]
    rfl

theorem number_is {ku : Option (UnitQ D K)} (hk : (unitOf ku).scale ≠ 0) {g : Given D K F} (h : g.Fits ku) : g.Is (g.number ku) (unitOf ku) := by
  have key : ∀ (x : K) (u : UnitQ D K), x * (u.scale / (unitOf ku).scale) * (unitOf ku).scale = x * u.scale := fun x u => by
    rw [mul_assoc, div_mul_cancel₀ _ hk]
  cases g with
  | cell c => rfl
  | qty x u => exact ⟨_, rfl, h.symm, key x u⟩
  | mono x u =>
    cases u with
    | none => rfl
    | some u => exact ⟨_, rfl, h.symm, key x u⟩

theorem call_state (E : Env S N K) (units : S → Option (UnitQ D K)) (s : St S N K F) (key : Key S N) : (call E units s key).1 = (getItem E s key).1 := by
  unfold call
  rcases getItem E s key with ⟨s', _ | got⟩
  · rfl
  · cases got with
    | many l => rfl
    | one v =>
      cases key with
      | whole k => rfl
      | elem k i => rfl
      | str n =>
        unfold Res.bind
        dsimp only
        split <;> rfl

theorem runOpU_eq (E : Env S N K) {units : S → Option (UnitQ D K)} (s : St S N K F) (o : UOp S N D K F) (h : ∀ w, o = .write w → w.Fits units) :
    runOpU E units s o = runOp E s (o.number units) := by
  cases o with
  | get k => rfl
  | has k => rfl
  | call k =>
    show ((call E units s k).1, Except.ok ()) = ((getItem E s k).1, Except.ok ())
    rw [call_state]
  | write w =>
    have h := h w rfl
    cases w with
    | elem k i g =>
      show setGiven E units s (.elem k i) (.one g) = _
      unfold setGiven
      dsimp only
      rw [clean_ok h]
      rfl
    | fill k g =>
      show setGiven E units s (.whole k) (.one g) = _
      unfold setGiven
      dsimp only
      rw [clean_ok h]
      rfl
    | scalar k g =>
      show setGiven E units s (.whole k) (.one g) = _
      unfold setGiven
      dsimp only
      rw [clean_ok h]
      rfl
    | list k gs =>
      show setGiven E units s (.whole k) (.list gs) = _
      unfold setGiven
      dsimp only
      rw [mapM_ok (g := Given.number (units k)) (fun g hg => clean_ok (h g hg))]
      rfl
    | arr k xs u =>
      show setGiven E units s (.whole k) (.qarr xs u) = _
      unfold setGiven
      dsimp only
      rw [mapM_ok (g := fun x => x * (u.scale / (unitOf (units k)).scale)) (fun x _ => toKey_ok h x)]
      dsimp only
      rw [List.map_map]
      rfl

theorem runU_eq (E : Env S N K) {units : S → Option (UnitQ D K)} (s : St S N K F) (ops : List (UOp S N D K F)) (h : ∀ w ∈ uwrites ops, w.Fits units) :
    runU E units s ops = run E s (ops.map (UOp.number units)) := by
  unfold runU run
  generalize ((s, .ok ()) : Res S N K F Unit) = r
  induction ops generalizing r with
  | nil => rfl
  | cons o ops ih =>
    rw [List.map_cons, List.foldl_cons, List.foldl_cons]
    have e : Res.bind r (fun s _ => runOpU E units s o) = Res.bind r (fun s _ => runOp E s (o.number units)) := by
      congr 1
      funext s _
      exact runOpU_eq E s o (fun w hw => h w (by subst hw; simp [uwrites]))
    rw [e]
    exact ih (fun w hw => h w (by
      unfold uwrites at hw ⊢
      rw [List.filterMap_cons]
      split
      · exact hw
      · exact List.mem_cons_of_mem _ hw)) _

theorem writes_number (units : S → Option (UnitQ D K)) (ops : List (UOp S N D K F)) : writes (ops.map (UOp.number units)) = (uwrites ops).map (UWrite.number units) := by
  induction ops with
  | nil => rfl
  | cons o ops ih =>
    unfold writes uwrites at ih ⊢
    cases o <;> simp [UOp.number, ih]

theorem lastScalar_number (units : S → Option (UnitQ D K)) (ws : List (UWrite S D K F)) (q : S) :
    lastScalar (ws.map (UWrite.number units)) q = (lastScalarU ws q).map (Given.number (units q)) := by
  unfold lastScalar lastScalarU
  have : ∀ (c : Option (Given D K F)), (ws.map (UWrite.number units)).foldl (fun c w => w.onScalar q c) (c.map (Given.number (units q))) =
      (ws.foldl (fun c w => w.onScalar q c) c).map (Given.number (units q)) := by
    induction ws with
    | nil => exact fun _ => rfl
    | cons w ws ih =>
      intro c
      rw [List.map_cons, List.foldl_cons, List.foldl_cons, ← ih]
      congr 1
      cases w with
      | scalar s g =>
        unfold UWrite.number Write.onScalar UWrite.onScalar
        dsimp only
        split
        · rename_i h
          subst h
          rfl
        · rfl
      | _ => rfl
  exact this none

/-- The number of what was last written; NaN if nothing was. -/
def numberOr (ku : Option (UnitQ D K)) (g : Option (Given D K F)) : Cell K F := match g with | some g => g.number ku | none => .nan

theorem lastElem_number (units : S → Option (UnitQ D K)) (ws : List (UWrite S D K F)) (q : S) (i : Nat) :
    lastElem (ws.map (UWrite.number units)) q i = numberOr (units q) (lastElemU ws q i) := by
  unfold lastElem lastElemU
  have : ∀ (c : Option (Given D K F)), (ws.map (UWrite.number units)).foldl (fun c w => w.onElem q i c) (numberOr (units q) c) =
      numberOr (units q) (ws.foldl (fun c w => w.onElem q i c) c) := by
    induction ws with
    | nil => exact fun _ => rfl
    | cons w ws ih =>
      intro c
      rw [List.map_cons, List.foldl_cons, List.foldl_cons, ← ih]
      congr 1
      cases w with
      | scalar s g => rfl
      | elem s j g =>
        unfold UWrite.number Write.onElem UWrite.onElem
        dsimp only
        split
        · rename_i h
          obtain ⟨rfl, -⟩ := h
          rfl
        · rfl
      | fill s g =>
        unfold UWrite.number Write.onElem UWrite.onElem
        dsimp only
        split
        · rename_i h
          subst h
          rfl
        · rfl
      | list s gs =>
        unfold UWrite.number Write.onElem UWrite.onElem
        dsimp only
        split
        · rename_i h
          subst h
          rw [List.getD_eq_getElem?_getD, List.getElem?_map]
          cases gs[i]? <;> rfl
        · rfl
      | arr s xs u =>
        unfold UWrite.number Write.onElem UWrite.onElem
        dsimp only
        split
        · rename_i h
          subst h
          rw [List.getD_eq_getElem?_getD, List.getElem?_map]
          cases xs[i]? <;> rfl
        · rfl
  exact this none

theorem mem_fits {units : S → Option (UnitQ D K)} {ws : List (UWrite S D K F)} (h : ∀ w ∈ ws, w.Fits units) (q : S) :
    (∀ g, lastScalarU ws q = some g → g.Fits (units q) ∧ ∃ w ∈ ws, ∃ g, w = .scalar q g) := by
  have : ∀ (c : Option (Given D K F)) g, ws.foldl (fun c w => w.onScalar q c) c = some g → c = some g ∨ g.Fits (units q) ∧ ∃ w ∈ ws, ∃ g, w = .scalar q g := by
    induction ws with
    | nil => exact fun c g h => Or.inl h
    | cons w ws ih =>
      intro c g hg
      rw [List.foldl_cons] at hg
      rcases ih (fun w hw => h w (by simp [hw])) _ _ hg with h' | ⟨h1, w', hw', h2⟩
      · cases w with
        | scalar s g' =>
          unfold UWrite.onScalar at h'
          dsimp only at h'
          split at h'
          · rename_i e
            subst e
            cases h'
            exact Or.inr ⟨h _ (List.mem_cons_self ..), _, List.mem_cons_self .., _, rfl⟩
          · exact Or.inl h'
        | _ => exact Or.inl h'
      · exact Or.inr ⟨h1, w', by simp [hw'], h2⟩
  intro g hg
  exact (this none g hg).resolve_left (by simp)


theorem elem_fits {units : S → Option (UnitQ D K)} {ws : List (UWrite S D K F)} (h : ∀ w ∈ ws, w.Fits units) (q : S) (i : Nat) :
    ∀ g, lastElemU ws q i = some g → g.Fits (units q) ∧ ∃ w ∈ ws, (w.number units).target = q := by
  have : ∀ (c : Option (Given D K F)) g, ws.foldl (fun c w => w.onElem q i c) c = some g → c = some g ∨ g.Fits (units q) ∧ ∃ w ∈ ws, (w.number units).target = q := by
    induction ws with
    | nil => exact fun c g h => Or.inl h
    | cons w ws ih =>
      intro c g hg
      rw [List.foldl_cons] at hg
      have hw := h w (List.mem_cons_self ..)
      rcases ih (fun w hw => h w (by simp [hw])) _ _ hg with h' | ⟨h1, w', hw', h2⟩
      · cases w with
        | scalar s g' => exact Or.inl h'
        | elem s j g' =>
          unfold UWrite.onElem at h'
          dsimp only at h'
          split at h'
          · rename_i e
            obtain ⟨rfl, -⟩ := e
            cases h'
            exact Or.inr ⟨hw, _, List.mem_cons_self .., rfl⟩
          · exact Or.inl h'
        | fill s g' =>
          unfold UWrite.onElem at h'
          dsimp only at h'
          split at h'
          · rename_i e
            subst e
            cases h'
            exact Or.inr ⟨hw, _, List.mem_cons_self .., rfl⟩
          · exact Or.inl h'
        | list s gs =>
          unfold UWrite.onElem at h'
          dsimp only at h'
          split at h'
          · rename_i e
            subst e
            exact Or.inr ⟨hw g (List.mem_of_getElem? h'), _, List.mem_cons_self .., rfl⟩
          · exact Or.inl h'
        | arr s xs u =>
          unfold UWrite.onElem at h'
          dsimp only at h'
          split at h'
          · rename_i e
            subst e
            split at h'
            · cases h'
              exact Or.inr ⟨hw, _, List.mem_cons_self .., rfl⟩
            · exact Or.inl h'
          · exact Or.inl h'
      · exact Or.inr ⟨h1, w', by simp [hw'], h2⟩
  intro g hg
  exact (this none g hg).resolve_left (by simp)

theorem touched_number (units : S → Option (UnitQ D K)) (ws : List (UWrite S D K F)) (q : S) : Touched (ws.map (UWrite.number units)) q ↔ TouchedU ws q := by
  have e : ∀ w : UWrite S D K F, (w.number units).target = w.target := fun w => by cases w <;> rfl
  constructor
  · rintro ⟨w, hw, h⟩
    obtain ⟨w', hw', rfl⟩ := List.mem_map.1 hw
    exact ⟨w', hw', by rw [← e, h]⟩
  · rintro ⟨w, hw, h⟩
    exact ⟨_, List.mem_map.2 ⟨w, hw, rfl⟩, by rw [e, h]⟩

theorem showsU_of {E : Env S N K} {units : S → Option (UnitQ D K)} (hne : ∀ q, (unitOf (units q)).scale ≠ 0) {ws : List (UWrite S D K F)} (hw : ∀ w ∈ ws, w.Fits units)
    {heap : Heap K F} {q : S} {v : Val K F} (h : Shows E (ws.map (UWrite.number units)) heap q v) : ShowsU E ws heap q v (unitOf (units q)) := by
  unfold Shows at h
  unfold ShowsU
  cases hs : E.shape q with
  | none =>
    rw [hs] at h
    obtain ⟨c, rfl, hc⟩ := h
    rw [lastScalar_number] at hc
    cases hg : lastScalarU ws q with
    | none =>
      rw [hg] at hc
      cases hc
    | some g =>
      rw [hg] at hc
      cases hc
      exact ⟨_, g, rfl, rfl, number_is (hne q) (mem_fits hw q g hg).1⟩
  | some n =>
    rw [hs] at h
    obtain ⟨r, d, rfl, hr⟩ := h
    refine ⟨r, d, _, rfl, hr, by simp, fun i hi => ?_⟩
    have hc : ((List.range n).map (lastElem (ws.map (UWrite.number units)) q))[i]? = some (numberOr (units q) (lastElemU ws q i)) := by
      rw [← lastElem_number]
      simp [hi]
    rw [hc]
    refine ⟨fun g hg => ?_, fun hg => by rw [hg]; rfl⟩
    rw [hg]
    exact ⟨_, rfl, number_is (hne q) (elem_fits hw q i g hg).1⟩

theorem copyOnWrite_keymap (s : St S N K F) (k : S) : (copyOnWrite s k).1.dict.keymap = s.dict.keymap := by
  unfold copyOnWrite
  repeat' split
  all_goals rfl

theorem readKey_keymap (E : Env S N K) (s : St S N K F) (k : S) : (readKey E s none (.var k)).1.dict.keymap = s.dict.keymap := by
  have key : ∀ x : Res S N K F Unit, x.1.dict.keymap = s.dict.keymap → (Res.bind x (fun s _ =>
      match s.dict.store.get? k with
      | none => (s, Except.error Err.keyError)
      | some v => (s, Except.ok (k, v))) : Res S N K F (S × Val K F)).1.dict.keymap = s.dict.keymap := by
    rintro ⟨s', _ | _⟩ h
    · exact h
    · unfold Res.bind
      dsimp only
      split <;> exact h
  unfold readKey
  dsimp only
  apply key
  split
  · exact copyOnWrite_keymap s k
  · rfl

/-- The name of one variable. -/
theorem call_one {E : Env S N K} (units : S → Option (UnitQ D K)) {ws : List (Write S K F)} {s : St S N K F} (h : Rel E ws s) {n : N} {q : S} (ht : Touched ws q)
    (hn : n ∈ E.names q) (honly : ∀ p, Touched ws p → n ∈ E.names p → p = q) :
    ∃ s' v, call E units s (.str n) = (s', .ok (.one v (unitOf (units q)))) ∧ Shows E ws s'.heap q v := by
  obtain ⟨km, hu, hi, hk⟩ := updateKeymap_spec h.idx
  have hr := rel_reindex h hi
  have hund : under km n = [.var q] := by
    have hnd := hi.nd n
    have hm : ∀ o, o ∈ under km n ↔ o = .var q := fun o => by
      rw [hk]
      constructor
      · rintro ⟨p, rfl, h1, h2⟩
        rw [honly p h1 h2]
      · rintro rfl
        exact ⟨q, rfl, ht, hn⟩
    cases hl : under km n with
    | nil => exact absurd ((hm (.var q)).2 rfl) (by rw [hl]; simp)
    | cons a l =>
      rw [hl] at hm hnd
      have ha := (hm a).1 (by simp)
      subst ha
      cases l with
      | nil => rfl
      | cons b l =>
        have hb := (hm b).1 (by simp)
        subst hb
        simp at hnd
  have hgk : km.get? (.str n) = some [.var q] := by
    unfold under at hund
    cases hg : km.get? (.str n) with
    | none =>
      rw [hg] at hund
      cases hund
    | some l =>
      rw [hg] at hund
      exact congrArg some hund
  obtain ⟨s', v, g1, -, g3, -⟩ := readKey_whole hr ht
  have hget : getItem E s (.str n) = (s', .ok (.one v)) := by
    simp only [getItem, hu, Res.bind]
    unfold getParsed
    dsimp only
    rw [hgk]
    simp only [Option.getD_some, g1, Res.bind]
  have hkm : s'.dict.keymap = km := by
    have := readKey_keymap E ⟨s.heap, ⟨s.dict.store, km, [], s.dict.owned⟩⟩ q
    rw [g1] at this
    exact this
  refine ⟨s', v, ?_, g3⟩
  unfold call
  rw [hget]
  unfold Res.bind
  dsimp only
  rw [hkm, hgk]
  dsimp only
  rw [unitOf_eq]

/-- Lengths. -/
abbrev ft : UnitQ ℤ ℚ := ⟨1, 3048 / 10000⟩
/-- Times. -/
abbrev sec : UnitQ ℤ ℚ := ⟨2, 1⟩

end KD

section
variable {S N D K F : Type} [DecidableEq S] [DecidableEq N] [AddCommGroup D] [DecidableEq D] [Field K]

/-- C94, after any writes of values of the right dimension, and any reads between them, every scalar and element reads with units as the quantity last written to it,
in whichever units it was given. Missing: what C23 leaves out, for the numbers after conversion; offsets. -/
theorem C94_kept_partial (E : Env S N K) {units : S → Option (UnitQ D K)} (hu : ∀ k u, units k = some u → u.scale ≠ 0) (heap : Heap K F) {ops : List (UOp S N D K F)}
    (hw : ∀ w ∈ uwrites ops, w.Fits units) (hf : Fine E (ops.map (UOp.number units))) :
    ∃ s, runU E units ⟨heap, empty⟩ ops = (s, .ok ()) ∧
      (∀ q g, E.shape q = none → lastScalarU (uwrites ops) q = some g → ∃ c, (call E units s (.whole q)).2 = .ok (.one (.cell c) (unitOf (units q))) ∧ g.Is c (unitOf (units q))) ∧
      ∀ q n i g, E.shape q = some n → i < n → lastElemU (uwrites ops) q i = some g →
        ∃ c, (call E units s (.elem q i)).2 = .ok (.one (.cell c) (unitOf (units q))) ∧ g.Is c (unitOf (units q)) := by
  have hne : ∀ q, (unitOf (units q)).scale ≠ 0 := fun q => by
    cases h : units q with
    | none => exact one_ne_zero
    | some u => exact hu q u h
  obtain ⟨s, h1, h2⟩ := C23_map_partial E heap _ hf
  rw [writes_number] at h2
  refine ⟨s, by rw [runU_eq E _ _ hw, h1], fun q g hq hg => ?_, fun q n i g hq hi hg => ?_⟩
  · obtain ⟨hfit, w, hwm, g', rfl⟩ := mem_fits hw q g hg
    obtain ⟨s', v, h3, h4⟩ := (h2.whole q).1 ⟨_, List.mem_map.2 ⟨_, hwm, rfl⟩, rfl⟩
    unfold Shows at h4
    rw [hq] at h4
    obtain ⟨c, rfl, hc⟩ := h4
    rw [lastScalar_number, hg] at hc
    cases hc
    refine ⟨_, ?_, number_is (hne q) hfit⟩
    unfold call
    rw [h3]
    show Except.ok (United.one _ ((units q).getD dimless)) = _
    rw [unitOf_eq]
  · obtain ⟨hfit, w, hwm, ht⟩ := elem_fits hw q i g hg
    have h3 := (h2.elem q n i hq hi).1 ⟨_, List.mem_map.2 ⟨_, hwm, rfl⟩, ht⟩
    rw [lastElem_number, hg] at h3
    refine ⟨_, ?_, number_is (hne q) hfit⟩
    unfold call
    rcases hgi : getItem E s (.elem q i) with ⟨s', r⟩
    rw [hgi] at h3
    dsimp only at h3
    subst h3
    show Except.ok (United.one _ ((units q).getD dimless)) = _
    rw [unitOf_eq]
    rfl

/-- C94, the same for whole variables and names: a scalar or a whole vector that was written to reads as what was last written to it, with its units, and a name as the
variable of this name, or as all of them, each with its units. -/
theorem C94_names_partial (E : Env S N K) {units : S → Option (UnitQ D K)} (hu : ∀ k u, units k = some u → u.scale ≠ 0) (heap : Heap K F) {ops : List (UOp S N D K F)}
    (hw : ∀ w ∈ uwrites ops, w.Fits units) (hf : Fine E (ops.map (UOp.number units))) :
    ∃ s, runU E units ⟨heap, empty⟩ ops = (s, .ok ()) ∧
      (∀ q, TouchedU (uwrites ops) q → ∃ s' v, call E units s (.whole q) = (s', .ok (.one v (unitOf (units q)))) ∧ ShowsU E (uwrites ops) s'.heap q v (unitOf (units q))) ∧
      ∀ n, ∃ qs : List S, qs.Nodup ∧ (∀ q, q ∈ qs ↔ TouchedU (uwrites ops) q ∧ n ∈ E.names q) ∧
        (qs = [] → (call E units s (.str n)).2 = .error .keyError) ∧
        (∀ q, qs = [q] → ∃ s' v, call E units s (.str n) = (s', .ok (.one v (unitOf (units q)))) ∧ ShowsU E (uwrites ops) s'.heap q v (unitOf (units q))) ∧
        (2 ≤ qs.length → ∃ s' l, call E units s (.str n) = (s', .ok (.many l)) ∧ l.map (·.1) = qs ∧
          ∀ p ∈ l, p.2.2 = unitOf (units p.1) ∧ ShowsU E (uwrites ops) s'.heap p.1 p.2.1 p.2.2) := by
  have hne : ∀ q, (unitOf (units q)).scale ≠ 0 := fun q => by
    cases h : units q with
    | none => exact one_ne_zero
    | some u => exact hu q u h
  obtain ⟨s, h1, hrel⟩ := run_rel E heap _ hf
  rw [writes_number] at hrel
  have h2 := rel_agrees hrel
  refine ⟨s, by rw [runU_eq E _ _ hw, h1], fun q hq => ?_, fun n => ?_⟩
  · obtain ⟨s', v, h3, h4⟩ := (h2.whole q).1 ((touched_number units _ q).2 hq)
    refine ⟨s', v, ?_, showsU_of hne hw h4⟩
    unfold call
    rw [h3]
    show (s', Except.ok (United.one v ((units q).getD dimless))) = _
    rw [unitOf_eq]
  · obtain ⟨qs, hnd, hqs, -, h0, -, hmany⟩ := h2.name n
    refine ⟨qs, hnd, fun q => by rw [hqs, touched_number], fun h => ?_, fun q hq => ?_, fun hl => ?_⟩
    · have h := h0 h
      unfold call
      rcases hg : getItem E s (.str n) with ⟨s', r⟩
      rw [hg] at h
      dsimp only at h
      subst h
      rfl
    · subst hq
      obtain ⟨ht, hn⟩ := (hqs q).1 (by simp)
      obtain ⟨s', v, h3, h4⟩ := call_one units hrel ht hn (fun p h1 h2 => by simpa using (hqs p).2 ⟨h1, h2⟩)
      exact ⟨s', v, h3, showsU_of hne hw h4⟩
    · obtain ⟨s', vs, h3, h4, h5⟩ := hmany hl
      refine ⟨s', vs.map (fun p => (p.1, p.2, (units p.1).getD dimless)), ?_, ?_, fun p hp => ?_⟩
      · unfold call
        rw [h3]
        rfl
      · rw [List.map_map, ← h4]
        rfl
      · obtain ⟨p', hp', rfl⟩ := List.mem_map.1 hp
        refine ⟨unitOf_eq _, ?_⟩
        dsimp only
        rw [unitOf_eq]
        exact showsU_of hne hw (h5 p' hp')

/-- C94, a value of another dimension raises and leaves the dict as it was. Missing: lists (`C94_list_fails`). -/
theorem C94_dimension_partial (E : Env S N K) (units : S → Option (UnitQ D K)) (s : St S N K F) (k : S) :
    (∀ g : Given D K F, ¬ g.Fits (units k) → setGiven E units s (.whole k) (.one g) = (s, .error .dimensionality) ∧
      ∀ i, setGiven E units s (.elem k i) (.one g) = (s, .error .dimensionality)) ∧
    ∀ xs u, xs ≠ [] → u.dim ≠ (unitOf (units k)).dim → setGiven E units s (.whole k) (.qarr xs u) = (s, .error .dimensionality) := by
  refine ⟨fun g hg => ⟨?_, fun i => ?_⟩, fun xs u hx hd => ?_⟩
  · unfold setGiven
    dsimp only
    rw [clean_error hg]
  · unfold setGiven
    dsimp only
    rw [clean_error hg]
  · cases xs with
    | nil => exact absurd rfl hx
    | cons x xs =>
      unfold setGiven
      dsimp only
      rw [List.mapM_cons, toKey_error hd]
      rfl

/-- C94 fails for monomials without units: they are taken for numbers of the variable's units, where a Quantity without units raises. -/
theorem C94_bare_fails (E : Env S N K) {units : S → Option (UnitQ D K)} {k : S} {u : UnitQ D K} (hu : units k = some u) (hd : u.dim ≠ 0) (s : St S N K F) (x : K) :
    setGiven E units s (.whole k) (.one (.mono x none)) = setItem E s (.whole k) (.one (.num x)) ∧
    setGiven E units s (.whole k) (.one (.qty x dimless)) = (s, .error .dimensionality) :=
  ⟨rfl, ((C94_dimension_partial E units s k).1 (.qty x dimless) (fun h => hd (by
    have h : (0 : D) = (unitOf (units k)).dim := h
    rw [hu] at h
    exact h.symm))).1⟩

end

/-- C94 fails for lists: one value of another dimension makes the write raise, and then the vector is reported as present but cannot be read. -/
theorem C94_list_fails :
    let s := setGiven kdEnv (fun _ => some ft) kd0 (.whole "x") (.list [.qty 1 ft, .qty 2 sec])
    s.2 = .error .dimensionality ∧ (hasItem kdEnv s.1 (.whole "x")).2 = .ok true ∧ (getItem kdEnv s.1 (.whole "x")).2 = .error .keyError := by decide +kernel

/-! ### The hypotheses can be met -/

example : (∀ w ∈ uwrites (N := String) (F := Unit) [.write (.scalar "z" (.qty 3 ft)), .call (.str "z"), .write (.list "x" [.mono 1 (some ft), .cell (.num 2)])],
      w.Fits (fun _ => some (⟨1, 1⟩ : UnitQ ℤ ℚ))) ∧
    Fine (F := Unit) kdEnv ([.write (.scalar "z" (.qty 3 ft)), .call (.str "z"), .write (.list "x" [.mono 1 (some ft), .cell (.num 2)])].map
      (UOp.number (fun _ => some (⟨1, 1⟩ : UnitQ ℤ ℚ)))) := by
  refine ⟨fun w hw => ?_, rfl, ⟨rfl, fun c hc => ?_⟩, trivial⟩
  · rcases List.mem_cons.1 hw with rfl | hw
    · rfl
    · rw [List.mem_singleton.1 hw]
      intro g hg
      rcases List.mem_cons.1 hg with rfl | hg
      · rfl
      · rw [List.mem_singleton.1 hg]
        trivial
  · rcases List.mem_cons.1 hc with rfl | hc
    · show kdEnv.r32 _ = _
      decide +kernel
    · rw [List.mem_singleton.1 hc]
      show kdEnv.r32 2 = 2
      decide +kernel
example : (call kdEnv (fun _ => some (⟨1, 1⟩ : UnitQ ℤ ℚ)) (setGiven kdEnv (fun _ => some (⟨1, 1⟩ : UnitQ ℤ ℚ)) kd0 (.whole "z") (.one (.qty 10 ft))).1 (.whole "z")).2 =
    .ok (.one (.cell (.num (3048 / 1000))) ⟨1, 1⟩) := by decide +kernel

end Verif
