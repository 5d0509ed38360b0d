import Mathlib.Tactic.Linarith
import Mathlib.Tactic.Ring
import Mathlib.Tactic.NormNum
import Verif.Lemmas.Sliders
import Verif.Model.Names

/-! C92: sliders for the constants of a model. -/

set_option linter.unusedSectionVars false

namespace Verif
open Sliders Lookup PyDict
variable {A N I K : Type} [DecidableEq A] [DecidableEq N] [Field K] [LinearOrder K] [IsStrictOrderedRing K]

/-- C92, sliders: without ranges every constant that is a number or a sweep has a slider, at its (first) value, which for numbers from zero is within the ends. There
are no other sliders. The model's constants stay as they are, but for sweeps, of which the first value remains. Missing: negative constants (`C92_negative_fails`) and the
other values of sweeps (`C92_sweep_fails`). -/
theorem C92_made_partial (E : Env A N I) (str : A → N) {subs : PyDict A (Val K)} (hw : subs.WF) (hr : ∀ p ∈ subs, p.2.Ready)
    (hi : ∀ p ∈ subs, ∀ q ∈ subs, str p.1 = str q.1 → p.1 = q.1) (s : KeySet A N) :
    ∃ r, (interact E str subs s []).2 = .ok r ∧
      (∀ k v x, (k, v) ∈ subs → v.start = some x → ∃ w, r.2.get? (str k) = some w ∧ w.key = k ∧ w.value = x ∧ (0 ≤ x → w.Fits x)) ∧
      (∀ n w, r.2.get? n = some w → n = str w.key ∧ ∃ v, (w.key, v) ∈ subs ∧ v.start = some w.value) ∧
      (∀ k v, (k, v) ∈ subs → r.1.get? k = some (match v.start with | some x => .num x | none => v)) ∧ ∀ k, k ∉ subs.map Prod.fst → r.1.get? k = none := by
  have hmem : ∀ k v, subs.get? k = some v → (k, v) ∈ subs := fun k v h => by
    obtain ⟨k', hk, e⟩ := exists_mem_of_get? h
    rw [← eq_of_beq e]
    exact hk
  have hget : ∀ k v, (k, v) ∈ subs → subs.get? k = some v := fun k v h => get?_of_mem hw h
  have hkeys : ∀ k, k ∈ subs.keys ↔ ∃ v, (k, v) ∈ subs := fun k => by simp [PyDict.keys]
  have hends : ∀ (k : A) (x : K), ends ([] : PyDict (MapKey A N) (Rng K)) k x = .ok (x / 2, x * 2) := fun k x => by simp [ends]
  have hnd : subs.keys.Nodup := by
    unfold PyDict.keys
    rw [List.Nodup, List.pairwise_map]
    exact hw.imp (fun h => by simpa using h)
  obtain ⟨r, h1, hm⟩ := makeAll str ([] : PyDict (MapKey A N) (Rng K)) subs.keys subs [] hnd
    (fun k hk => by
      obtain ⟨v, hv⟩ := (hkeys k).1 hk
      exact ⟨v, hget k v hv, hr _ hv, fun x _ => ⟨_, hends k x⟩⟩)
    (fun j hj k hk e => by
      obtain ⟨v, hv⟩ := (hkeys j).1 hj
      obtain ⟨u, hu⟩ := (hkeys k).1 hk
      exact hi _ hv _ hu e)
  refine ⟨r, ?_, fun k v x hv hx => ?_, fun n w hn => ?_, fun k v hv => ?_, fun k hk => ?_⟩
  · unfold interact collect
    rw [if_pos rfl]
    exact h1
  · refine ⟨_, hm.made k ((hkeys k).2 ⟨v, hv⟩) v x _ (hget k v hv) hx (hends k x), rfl, rfl, fun h0 => ⟨rfl, ?_, ?_, ?_⟩⟩
    · show x / 2 ≤ x
      linarith
    · show x ≤ x * 2
      linarith
    · show x / 2 + 24 * ((x * 2 - x / 2) / 24) = x * 2
      ring
  · rcases hm.only n w hn with h | ⟨k, hk, e1, e2, v, hv, hs⟩
    · cases h
    · subst e2
      exact ⟨e1, v, hmem _ _ hv, hs⟩
  · rw [hm.first k ((hkeys k).2 ⟨v, hv⟩) v (hget k v hv)]
    cases v.start <;> rfl
  · rw [hm.rest k hk]
    cases h : subs.get? k with
    | none => rfl
    | some v => exact absurd (List.mem_map.2 ⟨_, hmem k v h, rfl⟩) hk

/-- C92, ranges: constants for which a range is given by name have sliders from `lo` to `hi`, and no other variables have; ranges of free variables are ignored. Missing: names of several variables, ranges given for a
variable instead of a name (`C92_variable_fails`) and those with a step (`C92_step_fails`). -/
theorem C92_ranges_partial (E : Env A N I) (hE : EnvOK E) (str : A → N) {vks : List A} (us : List (Use A N)) {subs : PyDict A (Val K)} {L : List (N × A × K × K)}
    (hL : L ≠ []) (hn : (L.map (·.1)).Nodup) (ha : (L.map (·.2.1)).Nodup)
    (ho : ∀ t ∈ L, Only E vks t.1 t.2.1 ∧ ∀ v, subs.get? t.2.1 = some v → v.Ready) (hi : ∀ t ∈ L, ∀ u ∈ L, str t.2.1 = str u.2.1 → t.2.1 = u.2.1) :
    ∃ r, (interact E str subs (us.foldl (use E) (fresh vks)) (L.map (fun t => (.str t.1, .vals [t.2.2.1, t.2.2.2])))).2 = .ok r ∧
      (∀ t ∈ L, ∀ v x, subs.get? t.2.1 = some v → v.start = some x →
        ∃ w, r.2.get? (str t.2.1) = some w ∧ w.key = t.2.1 ∧ w.value = x ∧ w.min = t.2.2.1 ∧ w.max = t.2.2.2 ∧ w.min + 24 * w.step = w.max) ∧
      ∀ n w, r.2.get? n = some w → ∃ t ∈ L, n = str t.2.1 ∧ w.key = t.2.1 ∧ subs.get? t.2.1 ≠ none := by
  have hinv := inv_uses hE us (inv_fresh (N := N) E vks)
  set s := us.foldl (use E) (fresh vks) with hs
  clear_value s
  set rs : PyDict (MapKey A N) (Rng K) := L.map (fun t => (.str t.1, .vals [t.2.2.1, t.2.2.2])) with hrs
  have hwf : rs.WF := by
    rw [hrs, PyDict.WF, List.pairwise_map]
    rw [List.Nodup, List.pairwise_map] at hn
    exact hn.imp (fun h => by simpa using h)
  have hget : ∀ t ∈ L, rs.get? (.str t.1) = some (.vals [t.2.2.1, t.2.2.2]) := fun t ht => get?_of_mem hwf (List.mem_map.2 ⟨t, ht, rfl⟩)
  obtain ⟨c, hc, h2, -, h4, h5⟩ := collect_names hE (subs := subs) (L.map (fun t => (t.1, t.2.1))) s rs [] hinv hwf (by rw [List.map_map]; exact hn) (by rw [List.map_map]; exact ha) (fun p hp => by
    obtain ⟨t, ht, rfl⟩ := List.mem_map.1 hp
    exact (ho t ht).1)
  have hkeys : rs.keys = (L.map (fun t => (t.1, t.2.1))).map (fun p => MapKey.str p.1) := by simp [hrs, PyDict.keys]
  have hcol : collect E subs s rs = { c with vars := E.ord c.vars } := by
    unfold collect
    rw [if_neg (by simpa [hrs] using hL), hkeys]
    dsimp only
    rw [hc]
  have hvars : ∀ b, b ∈ E.ord c.vars ↔ (∃ t ∈ L, t.2.1 = b) ∧ subs.contains b = true := fun b => by
    rw [(hE.ord _).mem_iff, h4]
    simp
  have hends : ∀ t ∈ L, subs.contains t.2.1 = true → ∀ x, ends c.ranges t.2.1 x = .ok (t.2.2.1, t.2.2.2) := fun t ht htc x => by
    have h := h2 (t.1, t.2.1) (List.mem_map.2 ⟨t, ht, rfl⟩) htc
    rw [hget t ht] at h
    have hne : c.ranges ≠ [] := fun e => by
      rw [e] at h
      cases h
    unfold ends
    rw [if_neg hne, h]
    rfl
  obtain ⟨r, h1, hm⟩ := makeAll str c.ranges (E.ord c.vars) subs [] ((hE.ord _).nodup_iff.2 (h5 List.nodup_nil))
    (fun k hk => by
      obtain ⟨⟨t, ht, rfl⟩, htc⟩ := (hvars k).1 hk
      obtain ⟨v, hv⟩ := contains_iff.1 htc
      exact ⟨v, hv, (ho t ht).2 v hv, fun x _ => ⟨_, hends t ht htc x⟩⟩)
    (fun j hj k hk e => by
      obtain ⟨⟨t, ht, rfl⟩, -⟩ := (hvars j).1 hj
      obtain ⟨⟨u, hu, rfl⟩, -⟩ := (hvars k).1 hk
      exact hi t ht u hu e)
  refine ⟨r, ?_, fun t ht v x hv hx => ?_, fun n w hn => ?_⟩
  · unfold interact
    rw [hcol]
    exact h1
  · have htc := contains_iff.2 ⟨v, hv⟩
    refine ⟨_, hm.made t.2.1 ((hvars _).2 ⟨⟨t, ht, rfl⟩, htc⟩) v x _ hv hx (hends t ht htc x), rfl, rfl, rfl, rfl, ?_⟩
    show t.2.2.1 + 24 * ((t.2.2.2 - t.2.2.1) / 24) = t.2.2.2
    ring
  · rcases hm.only n w hn with h | ⟨k, hk, e1, e2, -⟩
    · cases h
    · obtain ⟨⟨t, ht, rfl⟩, htc⟩ := (hvars k).1 hk
      obtain ⟨v, hv⟩ := contains_iff.1 htc
      exact ⟨t, ht, e1, e2, by rw [hv]; simp⟩

/-- C92, moving: where the texts of variables with sliders are names of these only, sliders set their variables and nothing else, whatever was looked up before. Missing:
texts that are names of other variables too (`C92_clash_fails`) or of none (`C92_numbered_fails`). -/
theorem C92_moved_partial (E : Env A N I) (hE : EnvOK E) (str : A → N) {vks : List A} (us : List (Use A N)) (subs : PyDict A (Val K)) {moves : List (A × K)}
    (hn : (moves.map Prod.fst).Nodup) (ho : ∀ p ∈ moves, Only E vks (str p.1) p.1) :
    ∃ r, (resolve E (us.foldl (use E) (fresh vks)) subs (moves.map (fun p => (str p.1, p.2)))).2 = .ok r ∧ (∀ p ∈ moves, r.get? p.1 = some (.num p.2)) ∧
      ∀ b, b ∉ moves.map Prod.fst → r.get? b = subs.get? b :=
  resolve_ok hE str moves _ subs (inv_uses hE us (inv_fresh E vks)) hn ho

/-- C92 fails for sweeps: the slider ends at twice the first value, whatever the others are, so that it does not reach those. -/
theorem C92_sweep_fails (E : Env A N I) (str : A → N) (k : A) (x : K) (xs : List K) (s : KeySet A N) :
    ∃ r w, (interact E str [(k, .sweep (x :: xs))] s []).2 = .ok r ∧ r.2.get? (str k) = some w ∧ w.min = x / 2 ∧ w.max = x * 2 ∧ ∀ y ∈ xs, x * 2 < y → ¬ y ≤ w.max := by
  refine ⟨([(k, .num x)], [(str k, ⟨k, x / 2, x * 2, (x * 2 - x / 2) / 24, x⟩)]), ⟨k, x / 2, x * 2, (x * 2 - x / 2) / 24, x⟩, ?_, ?_, rfl, rfl, fun y _ hy => not_le.2 hy⟩
  · simp [interact, collect, PyDict.keys, makeStep, PyDict.get?, PyDict.set, slider, ends, Except.map, pure, Except.pure]
    rfl
  · simp [PyDict.get?]

/-- C92 fails for negative constants: the lower end of the slider is above the upper. -/
theorem C92_negative_fails (E : Env A N I) (str : A → N) (k : A) {x : K} (hx : x < 0) (s : KeySet A N) :
    ∃ r w, (interact E str [(k, .num x)] s []).2 = .ok r ∧ r.2.get? (str k) = some w ∧ w.max < w.min := by
  refine ⟨([(k, .num x)], [(str k, ⟨k, x / 2, x * 2, (x * 2 - x / 2) / 24, x⟩)]), ⟨k, x / 2, x * 2, (x * 2 - x / 2) / 24, x⟩, ?_, ?_, ?_⟩
  · simp [interact, collect, PyDict.keys, makeStep, PyDict.get?, PyDict.set, slider, ends, Except.map, pure, Except.pure]
    rfl
  · simp [PyDict.get?]
  · show x * 2 < x / 2
    linarith

/-- The text of a variable. -/
def sliderText : Names.Var → VK.Str := Names.strWithout {} false

/-- Variables `x`, and `x` in the second model called `A`. -/
def sliderX : Names.Var := ⟨['x'], [], [], [], ['-']⟩
def sliderY : Names.Var := ⟨['y'], [], [], [], ['-']⟩
def sliderA : Names.Var := ⟨['x'], [(['A'], 1)], [], [], ['-']⟩

/-- C92 fails for ranges given for a variable instead of a name: the range is not used, and an exception if there are others. -/
theorem C92_variable_fails :
    (interact (Names.env id) sliderText [(sliderX, .num (3 : ℚ))] (fresh [sliderX, sliderY]) [(.key sliderX, .vals [1, 9])]).2 =
      .ok ([(sliderX, .num 3)], [(['x'], ⟨sliderX, 3 / 2, 6, 3 / 16, 3⟩)]) ∧
    (interact (Names.env id) sliderText [(sliderX, .num (3 : ℚ)), (sliderY, .num 1)] (fresh [sliderX, sliderY]) [(.key sliderX, .vals [1, 9]), (.str ['y'], .none)]).2 =
      .error .keyError := by
  constructor <;> decide +kernel

/-- C92 fails for ranges with a step, which the documentation tells to give as a minimum, step and maximum: an exception. -/
theorem C92_step_fails :
    (interact (Names.env id) sliderText [(sliderX, .num (3 : ℚ))] (fresh [sliderX, sliderY]) [(.str ['x'], .vals [1, 1, 9])]).2 = .error .valueError := by
  decide +kernel

/-- C92 fails where another variable has the text of one with a slider as its name: moving any slider is an exception. -/
theorem C92_clash_fails (E : Env A N I) (hE : EnvOK E) {vks : List A} (us : List (Use A N)) (subs : PyDict A (Val K)) {n : N} {a b : A} (ha : a ∈ vks) (hb : b ∈ vks)
    (hna : MapKey.str n ∈ E.keys a) (hnb : MapKey.str n ∈ E.keys b) (hne : a ≠ b) (hv : E.veckey a = none) {x : K} {l : List (N × K)} (hl : (n, x) ∈ l) :
    ∃ e, (resolve E (us.foldl (use E) (fresh vks)) subs l).2 = .error e :=
  resolve_err hE (assign_clash hE ha hb hna hnb hne hv x) l _ subs (inv_uses hE us (inv_fresh E vks)) hl

/-- C92 fails for variables in models with numbers: their text, with the number, is no name of a variable. Moving any slider is an exception. -/
theorem C92_numbered_fails (E : Env A N I) (hE : EnvOK E) {vks : List A} (us : List (Use A N)) (subs : PyDict A (Val K)) {n : N}
    (hn : ∀ a ∈ vks, MapKey.str n ∉ E.keys a) {x : K} {l : List (N × K)} (hl : (n, x) ∈ l) :
    ∃ e, (resolve E (us.foldl (use E) (fresh vks)) subs l).2 = .error e :=
  resolve_err hE (assign_nobody hE hn x) l _ subs (inv_uses hE us (inv_fresh E vks)) hl

/-! ### The hypotheses can be met -/

/-- The two variables and order of sets of the examples. -/
theorem sliderEnv : EnvOK (Names.env id) := ⟨fun l => List.Perm.refl l, fun a b h1 h2 h3 => by
  obtain ⟨an, al, ai, ash, au⟩ := a
  obtain ⟨bn, bl, bi, bsh, bu⟩ := b
  cases ai <;> cases bi <;> simp_all [Names.env]⟩

example : Only (Names.env id) [sliderX, sliderY] ['x'] sliderX ∧ Only (Names.env id) [sliderX, sliderY] ['y'] sliderY := by
  refine ⟨⟨by simp, by decide, by decide +kernel, ?_⟩, ⟨by simp, by decide, by decide +kernel, ?_⟩⟩ <;>
  · intro b hb
    rcases List.mem_cons.1 hb with rfl | hb
    · decide +kernel
    · rw [List.mem_singleton.1 hb]
      decide +kernel

example : sliderText sliderX = ['x'] ∧ sliderText sliderY = ['y'] ∧ sliderText sliderA = "A1.x".toList := by decide +kernel
example : (interact (Names.env id) sliderText [(sliderX, .num (3 : ℚ)), (sliderY, .sweep [1, 2, 4])] (fresh [sliderX, sliderY]) []).2 =
    .ok ([(sliderX, .num 3), (sliderY, .num 1)], [(['x'], ⟨sliderX, 3 / 2, 6, 3 / 16, 3⟩), (['y'], ⟨sliderY, 1 / 2, 2, 1 / 16, 1⟩)]) := by decide +kernel
example : (interact (Names.env id) sliderText [(sliderX, .num (3 : ℚ)), (sliderY, .sweep [1, 2, 4])] (fresh [sliderX, sliderY]) [(.str ['x'], .vals [1, 9])]).2 =
    .ok ([(sliderX, .num 3), (sliderY, .sweep [1, 2, 4])], [(['x'], ⟨sliderX, 1, 9, 1 / 3, 3⟩)]) := by decide +kernel
example : (resolve (Names.env id) (fresh [sliderX, sliderY]) [(sliderX, .num (3 : ℚ)), (sliderY, .num 1)] [(['y'], 2)]).2 = .ok [(sliderX, .num 3), (sliderY, .num 2)] := by
  decide +kernel
example : MapKey.str ['x'] ∈ (Names.env id).keys sliderX ∧ MapKey.str ['x'] ∈ (Names.env id).keys sliderA ∧ sliderX ≠ sliderA ∧ (Names.env id).veckey sliderX = none := by
  decide +kernel
example : ∀ a ∈ [sliderY, sliderA], MapKey.str (sliderText sliderA) ∉ (Names.env id).keys a := by decide +kernel

end Verif
