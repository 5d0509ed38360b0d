import Verif.Spec.Sliders
import Verif.Lemmas.Lookup
import Verif.Lemmas.PyDict

/-! Sliders: lemmas for C92. -/

set_option linter.unusedSectionVars false

namespace Verif
namespace Sliders
open Lookup PyDict
variable {A N I K : Type} [DecidableEq A] [DecidableEq N] [Field K]

/-! ### Making sliders -/

theorem makeStep_ok (str : A → N) {ranges : PyDict (MapKey A N) (Rng K)} {subs : PyDict A (Val K)} (out : PyDict N (Slider A K)) {k : A} {v : Val K} (hv : subs.get? k = some v)
    (hr : v.Ready) (he : ∀ x, v.start = some x → ∃ p, ends ranges k x = .ok p) :
    ∃ subs' out', makeStep str ranges (subs, out) k = .ok (subs', out') ∧ (∀ j, subs'.get? j = if k = j then some (v.start.elim v .num) else subs.get? j) ∧
      (v.start = none → out' = out) ∧ ∀ x p, v.start = some x → ends ranges k x = .ok p → out' = out.set (str k) ⟨k, p.1, p.2, (p.2 - p.1) / 24, x⟩ := by
  unfold makeStep
  dsimp only
  rw [hv]
  cases v with
  | num x =>
    obtain ⟨p, hp⟩ := he x rfl
    refine ⟨subs, _, by simp only [slider, hp]; rfl, fun j => ?_, by simp [Val.start], fun y q hy hq => ?_⟩
    · split
      · rename_i h
        rw [← h, hv]
        rfl
      · rfl
    · cases hy
      rw [hp] at hq
      cases hq
      rfl
  | sweep vs =>
    cases vs with
    | nil => exact hr.elim
    | cons x xs =>
      obtain ⟨p, hp⟩ := he x rfl
      refine ⟨_, _, by simp only [slider, hp]; rfl, fun j => ?_, by simp [Val.start], fun y q hy hq => ?_⟩
      · rw [get?_set]
        simp [Val.start]
      · cases hy
        rw [hp] at hq
        cases hq
        rfl
  | sweepFn => exact hr.elim
  | other =>
    refine ⟨subs, out, rfl, fun j => ?_, fun _ => rfl, by simp [Val.start]⟩
    split
    · rename_i h
      rw [← h, hv]
      rfl
    · rfl

/-- The result of making sliders for `ks`. -/
structure Made (str : A → N) (ranges : PyDict (MapKey A N) (Rng K)) (ks : List A) (subs : PyDict A (Val K)) (out : PyDict N (Slider A K))
    (r : PyDict A (Val K) × PyDict N (Slider A K)) : Prop where
  rest : ∀ k, k ∉ ks → r.1.get? k = subs.get? k
  first : ∀ k ∈ ks, ∀ v, subs.get? k = some v → r.1.get? k = some (v.start.elim v .num)
  made : ∀ k ∈ ks, ∀ v x p, subs.get? k = some v → v.start = some x → ends ranges k x = .ok p → r.2.get? (str k) = some ⟨k, p.1, p.2, (p.2 - p.1) / 24, x⟩
  only : ∀ n w, r.2.get? n = some w → out.get? n = some w ∨ ∃ k ∈ ks, n = str k ∧ w.key = k ∧ ∃ v, subs.get? k = some v ∧ v.start = some w.value
  keep : ∀ n, (∀ k ∈ ks, str k ≠ n) → r.2.get? n = out.get? n

theorem makeAll (str : A → N) (ranges : PyDict (MapKey A N) (Rng K)) : ∀ (ks : List A) (subs : PyDict A (Val K)) (out : PyDict N (Slider A K)), ks.Nodup →
    (∀ k ∈ ks, ∃ v, subs.get? k = some v ∧ v.Ready ∧ ∀ x, v.start = some x → ∃ p, ends ranges k x = .ok p) → (∀ j ∈ ks, ∀ k ∈ ks, str j = str k → j = k) →
    ∃ r, ks.foldlM (makeStep str ranges) (subs, out) = .ok r ∧ Made str ranges ks subs out r := by
  intro ks
  induction ks with
  | nil => exact fun subs out _ _ _ => ⟨_, rfl, fun _ _ => rfl, by simp, by simp, fun n w h => .inl h, fun _ _ => rfl⟩
  | cons k ks ih =>
    intro subs out hnd hk hinj
    obtain ⟨v, hv, hr, he⟩ := hk k (by simp)
    obtain ⟨hkn, hnd⟩ := List.nodup_cons.1 hnd
    obtain ⟨subs', out', h1, h2, h3, h4⟩ := makeStep_ok str out hv hr he
    have hsame : ∀ j ∈ ks, subs'.get? j = subs.get? j := fun j hj => by
      rw [h2, if_neg]
      rintro rfl
      exact hkn hj
    obtain ⟨r, hr1, hm⟩ := ih subs' out' hnd (fun j hj => by
      rw [hsame j hj]
      exact hk j (by simp [hj])) (fun i hi j hj => hinj i (by simp [hi]) j (by simp [hj]))
    have hstr : ∀ j ∈ ks, str j ≠ str k := fun j hj e => by
      have := hinj j (by simp [hj]) k (by simp) e
      exact hkn (this ▸ hj)
    refine ⟨r, ?_, ⟨fun j hj => ?_, fun j hj w hw => ?_, fun j hj w x p hw hx hp => ?_, fun n w hn => ?_, fun n hn => ?_⟩⟩
    · rw [List.foldlM_cons, h1]
      exact hr1
    · rw [hm.rest j (fun h => hj (by simp [h])), h2, if_neg]
      rintro rfl
      exact hj (by simp)
    · rcases List.mem_cons.1 hj with rfl | hj
      · rw [hm.rest _ hkn, h2, if_pos rfl]
        rw [hv] at hw
        cases hw
        rfl
      · exact hm.first j hj w (by rw [hsame j hj, hw])
    · rcases List.mem_cons.1 hj with rfl | hj
      · rw [hv] at hw
        cases hw
        rw [hm.keep _ hstr, h4 x p hx hp, get?_set_self]
      · exact hm.made j hj w x p (by rw [hsame j hj, hw]) hx hp
    · rcases hm.only n w hn with h | ⟨j, hj, e1, e2, u, hu, hus⟩
      · cases hst : v.start with
        | none =>
          rw [h3 hst] at h
          exact .inl h
        | some x =>
          obtain ⟨p, hp⟩ := he x hst
          rw [h4 x p hst hp, get?_set] at h
          split at h
          · rename_i e
            cases h
            exact .inr ⟨k, by simp, (eq_of_beq e).symm, rfl, v, hv, hst⟩
          · exact .inl h
      · exact .inr ⟨j, by simp [hj], e1, e2, u, by rw [← hsame j hj, hu], hus⟩
    · rw [hm.keep n (fun j hj => hn j (by simp [hj]))]
      cases hst : v.start with
      | none => rw [h3 hst]
      | some x =>
        obtain ⟨p, hp⟩ := he x hst
        rw [h4 x p hst hp, get?_set, if_neg (by simpa using hn k (by simp))]

/-! ### Ranges -/

theorem subsParse_only {E : Env A N I} (hE : EnvOK E) {vks : List A} {s : KeySet A N} (hs : Inv E vks s) {n : N} {a : A} (ho : Only E vks n a) :
    (subsParse E s n).2 = .ok (some a, none) := by
  obtain ⟨h1, h2, h3, h4⟩ := ho
  obtain ⟨l, hl, hr⟩ := subsParse_some hE hs h1 h3
  have : l = [a] := perm_single hl.2 (fun b => by
    rw [hl.1]
    exact ⟨fun h => h4 b h.1 h.2, fun h => h ▸ ⟨h1, h3⟩⟩)
  rw [hr, this]
  simp [subsChoose, h2]

theorem step_name {E : Env A N I} (hE : EnvOK E) {vks : List A} {s : KeySet A N} (hs : Inv E vks s) {subs : PyDict A (Val K)} {n : N} {a : A} (ho : Only E vks n a)
    (ha : subs.contains a = true) (ranges : PyDict (MapKey A N) (Rng K)) (vars : List A) :
    ∃ s', Inv E vks s' ∧ rangeStep E subs ⟨s, ranges, vars⟩ (.str n) = ⟨s', (ranges.set (.key a) ((ranges.get? (.str n)).getD .none)).del (.str n), add vars a⟩ := by
  have h1 := subsParse_only hE hs ho
  have hs' := inv_subsParse hE hs n
  have hi : inSubs E subs s (.str n) = ((subsParse E s n).1, true) := by
    unfold inSubs subsContains
    dsimp only
    rw [h1]
    simp [ha]
  have hg : (getItem E (subsParse E s n).1 (.str n)).2 = [a] := perm_single (getItem_nodup hE hs' _) (fun b => by
    rw [getItem_str hE hs']
    exact ⟨fun h => ho.2.2.2 b h.1 h.2, fun h => h ▸ ⟨ho.1, ho.2.2.1⟩⟩)
  have hord : E.ord [a] = [a] := List.perm_singleton.1 (hE.ord [a])
  refine ⟨(getItem E (subsParse E s n).1 (.str n)).1, inv_getItem hE hs' _, ?_⟩
  unfold rangeStep
  dsimp only
  rw [hi]
  dsimp only
  rw [if_pos rfl, hg, hord]
  rfl

theorem step_free {E : Env A N I} (hE : EnvOK E) {vks : List A} {s : KeySet A N} (hs : Inv E vks s) {subs : PyDict A (Val K)} {n : N} {a : A} (ho : Only E vks n a)
    (ha : subs.contains a = false) (ranges : PyDict (MapKey A N) (Rng K)) (vars : List A) :
    ∃ s', Inv E vks s' ∧ rangeStep E subs ⟨s, ranges, vars⟩ (.str n) = ⟨s', ranges, vars⟩ := by
  have h1 := subsParse_only hE hs ho
  have hi : inSubs E subs s (.str n) = ((subsParse E s n).1, false) := by
    unfold inSubs subsContains
    dsimp only
    rw [h1]
    simp [ha]
  refine ⟨(subsParse E s n).1, inv_subsParse hE hs n, ?_⟩
  unfold rangeStep
  dsimp only
  rw [hi]
  rfl

theorem collect_names {E : Env A N I} (hE : EnvOK E) {vks : List A} {subs : PyDict A (Val K)} : ∀ (L : List (N × A)) (s : KeySet A N) (rs : PyDict (MapKey A N) (Rng K))
    (vars : List A), Inv E vks s → rs.WF → (L.map Prod.fst).Nodup → (L.map Prod.snd).Nodup → (∀ p ∈ L, Only E vks p.1 p.2) →
    ∃ c, (L.map (fun p => MapKey.str p.1)).foldl (rangeStep E subs) ⟨s, rs, vars⟩ = c ∧
      (∀ p ∈ L, subs.contains p.2 = true → c.ranges.get? (.key p.2) = some ((rs.get? (.str p.1)).getD .none)) ∧
      (∀ a, a ∉ L.map Prod.snd → c.ranges.get? (.key a) = rs.get? (.key a)) ∧
      (∀ b, b ∈ c.vars ↔ b ∈ vars ∨ b ∈ L.map Prod.snd ∧ subs.contains b = true) ∧ (vars.Nodup → c.vars.Nodup) := by
  intro L
  induction L with
  | nil => exact fun s rs vars _ _ _ _ _ => ⟨_, rfl, by simp, by simp, by simp, fun h => h⟩
  | cons q L ih =>
    intro s rs vars hs hw hn ha hL
    obtain ⟨n, a⟩ := q
    rw [List.map_cons, List.nodup_cons] at hn ha
    have ho := hL (n, a) (by simp)
    cases hc : subs.contains a with
    | false =>
      obtain ⟨s', hs', e⟩ := step_free hE hs ho hc rs vars
      obtain ⟨c, hc1, h2, h3, h4, h5⟩ := ih s' rs vars hs' hw hn.2 ha.2 (fun p hp => hL p (by simp [hp]))
      refine ⟨c, ?_, fun p hp hpc => ?_, fun b hb => ?_, fun b => ?_, h5⟩
      · rw [List.map_cons, List.foldl_cons, e, hc1]
      · rcases List.mem_cons.1 hp with rfl | hpL
        · rw [hc] at hpc
          cases hpc
        · exact h2 p hpL hpc
      · rw [List.map_cons, List.mem_cons, not_or] at hb
        exact h3 b hb.2
      · rw [h4, List.map_cons, List.mem_cons]
        refine or_congr_right ⟨fun h => ⟨Or.inr h.1, h.2⟩, fun h => ⟨h.1.resolve_left ?_, h.2⟩⟩
        rintro rfl
        rw [hc] at h
        cases h.2
    | true =>
      obtain ⟨s', hs', e⟩ := step_name hE hs ho hc rs vars
      have hw1 := wf_set hw (MapKey.key a) ((rs.get? (.str n)).getD .none)
      have hkey : ∀ b, ((rs.set (.key a) ((rs.get? (.str n)).getD .none)).del (.str n)).get? (.key b) = if a = b then some ((rs.get? (.str n)).getD .none) else rs.get? (.key b) := by
        intro b
        rw [get?_del hw1, get?_set]
        simp
      have hstr : ∀ m, m ≠ n → ((rs.set (.key a) ((rs.get? (.str n)).getD .none)).del (.str n)).get? (.str m) = rs.get? (.str m) := by
        intro m hm
        rw [get?_del hw1, get?_set]
        simp [Ne.symm hm]
      obtain ⟨c, hc1, h2, h3, h4, h5⟩ := ih s' _ (add vars a) hs' (wf_del hw1 (.str n)) hn.2 ha.2 (fun p hp => hL p (by simp [hp]))
      refine ⟨c, ?_, fun p hp hpc => ?_, fun b hb => ?_, fun b => ?_, fun hv => h5 (add_nodup hv a)⟩
      · rw [List.map_cons, List.foldl_cons, e, hc1]
      · rcases List.mem_cons.1 hp with rfl | hpL
        · rw [h3 a ha.1, hkey, if_pos rfl]
        · rw [h2 p hpL hpc, hstr]
          exact fun e => hn.1 (List.mem_map.2 ⟨p, hpL, e⟩)
      · rw [List.map_cons, List.mem_cons, not_or] at hb
        rw [h3 b hb.2, hkey, if_neg (Ne.symm hb.1)]
      · rw [h4, mem_add, List.map_cons, List.mem_cons, or_assoc]
        refine or_congr_right ⟨fun h => ?_, fun h => ?_⟩
        · rcases h with rfl | h
          · exact ⟨Or.inl rfl, hc⟩
          · exact ⟨Or.inr h.1, h.2⟩
        · exact h.1.imp_right (fun h' => ⟨h', h.2⟩)

/-! ### Moving sliders -/

theorem assign_only {E : Env A N I} (hE : EnvOK E) {vks : List A} {s : KeySet A N} (hs : Inv E vks s) {n : N} {a : A} (ho : Only E vks n a) (subs : PyDict A (Val K)) (x : K) :
    ∃ s', Inv E vks s' ∧ assign E s subs n x = (s', .ok (subs.set a (.num x))) := by
  refine ⟨(subsParse E s n).1, inv_subsParse hE hs n, ?_⟩
  unfold assign
  dsimp only
  rw [subsParse_only hE hs ho]

theorem resolve_ok {E : Env A N I} (hE : EnvOK E) {vks : List A} (name : A → N) : ∀ (moves : List (A × K)) (s : KeySet A N) (subs : PyDict A (Val K)), Inv E vks s →
    (moves.map Prod.fst).Nodup → (∀ p ∈ moves, Only E vks (name p.1) p.1) →
    ∃ r, (resolve E s subs (moves.map (fun p => (name p.1, p.2)))).2 = .ok r ∧ (∀ p ∈ moves, r.get? p.1 = some (.num p.2)) ∧
      ∀ b, b ∉ moves.map Prod.fst → r.get? b = subs.get? b := by
  intro moves
  induction moves with
  | nil => exact fun s subs _ _ _ => ⟨subs, rfl, by simp, fun _ _ => rfl⟩
  | cons q moves ih =>
    intro s subs hs hn ho
    obtain ⟨a, x⟩ := q
    rw [List.map_cons, List.nodup_cons] at hn
    obtain ⟨s', hs', e⟩ := assign_only hE hs (ho (a, x) (by simp)) subs x
    obtain ⟨r, h1, h2, h3⟩ := ih s' (subs.set a (.num x)) hs' hn.2 (fun p hp => ho p (by simp [hp]))
    refine ⟨r, ?_, fun p hp => ?_, fun b hb => ?_⟩
    · rw [List.map_cons, resolve]
      dsimp only at e ⊢
      rw [e]
      exact h1
    · rcases List.mem_cons.1 hp with rfl | hp
      · rw [h3 _ hn.1, get?_set_self]
      · exact h2 p hp
    · rw [List.map_cons, List.mem_cons, not_or] at hb
      rw [h3 b hb.2, get?_set, if_neg (by simpa using Ne.symm hb.1)]

theorem resolve_err {E : Env A N I} (hE : EnvOK E) {vks : List A} {n : N} {x : K}
    (h : ∀ (s : KeySet A N) (subs : PyDict A (Val K)), Inv E vks s → ∃ e, (assign E s subs n x).2 = .error e) :
    ∀ (l : List (N × K)) (s : KeySet A N) (subs : PyDict A (Val K)), Inv E vks s → (n, x) ∈ l → ∃ e, (resolve E s subs l).2 = .error e := by
  intro l
  induction l with
  | nil => simp
  | cons q l ih =>
    intro s subs hs hm
    obtain ⟨m, y⟩ := q
    have hs' : Inv E vks (assign E s subs m y).1 := inv_subsParse hE hs m
    rw [resolve]
    rcases hq : assign E s subs m y with ⟨s1, r⟩
    rw [hq] at hs'
    cases r with
    | error e => exact ⟨e, rfl⟩
    | ok subs1 =>
      rcases List.mem_cons.1 hm with e | hm
      · cases e
        obtain ⟨e, he⟩ := h s subs hs
        rw [hq] at he
        cases he
      · exact ih s1 subs1 hs' hm

theorem assign_nobody {E : Env A N I} (hE : EnvOK E) {vks : List A} {n : N} (hn : ∀ a ∈ vks, MapKey.str n ∉ E.keys a) (x : K) (s : KeySet A N) (subs : PyDict A (Val K))
    (hs : Inv E vks s) : ∃ e, (assign E s subs n x).2 = .error e := by
  have h : (subsParse E s n).2 = .error .keyError ∨ (subsParse E s n).2 = .error .valueError := by
    by_cases hc : (contains E s (.str n)).2 = true
    · right
      rw [subsParse_eq hc]
      have hg : (getItem E (contains E s (.str n)).1 (.str n)).2 = [] := List.eq_nil_iff_forall_not_mem.2 (fun a ha => by
        rw [getItem_str hE (inv_contains hE hs _)] at ha
        exact hn a ha.1 ha.2)
      rw [hg, List.perm_nil.1 (hE.ord [])]
      rfl
    · left
      unfold subsParse
      dsimp only
      rw [if_pos (by simpa using hc)]
  unfold assign
  dsimp only
  rcases h with h | h <;> rw [h] <;> exact ⟨_, rfl⟩

theorem assign_clash {E : Env A N I} (hE : EnvOK E) {vks : List A} {n : N} {a b : A} (ha : a ∈ vks) (hb : b ∈ vks) (hna : MapKey.str n ∈ E.keys a)
    (hnb : MapKey.str n ∈ E.keys b) (hne : a ≠ b) (hv : E.veckey a = none) (x : K) (s : KeySet A N) (subs : PyDict A (Val K)) (hs : Inv E vks s) :
    ∃ e, (assign E s subs n x).2 = .error e := by
  obtain ⟨l, hl, hr⟩ := subsParse_some hE hs ha hna
  have hla := (hl.1 a).2 ⟨ha, hna⟩
  have hlb := (hl.1 b).2 ⟨hb, hnb⟩
  unfold assign
  dsimp only
  rw [hr]
  by_cases h : ∀ c ∈ l, E.veckey c = none
  · rw [subsChoose_same hla hlb hne h]
    exact ⟨_, rfl⟩
  · push Not at h
    obtain ⟨c, hc, hcv⟩ := h
    rw [subsChoose_diff hla hc (by rw [hv]; exact hcv.symm)]
    exact ⟨_, rfl⟩

end Sliders
end Verif
