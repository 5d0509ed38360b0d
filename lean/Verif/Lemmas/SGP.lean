import Verif.Model.SGP
import Verif.Lemmas.GP
import Mathlib.Algebra.BigOperators.Group.Finset.Basic
import Mathlib.Algebra.BigOperators.Group.List.Basic
import Mathlib.Data.List.Range

/-! Lemmas about the in-place update of a program. -/

set_option linter.unusedSectionVars false

namespace Verif
namespace SGP
open GP PyDict
variable {V K : Type} [DecidableEq V] [Field K] [LinearOrder K]

/-- The contribution of an entry to a row. -/
def gAt (y : Nat → K) (i : Nat) (t : Nat × Nat × K) : K := if t.1 = i then t.2.2 * y t.2.1 else 0

/-- The contribution of the entry with a given number. -/
def gIdx (y : Nat → K) (i : Nat) (A : Coot K) (r : Nat) : K := ((A[r]?).map (gAt y i)).getD 0

theorem rowDot_eq_sum (A : Coot K) (y : Nat → K) (i : Nat) : rowDot A y i = (A.map (gAt y i)).sum := by
  induction A with
  | nil => rfl
  | cons t A ih => rw [rowDot_cons, ih]; rfl

theorem rowDot_eq_range (A : Coot K) (y : Nat → K) (i : Nat) : rowDot A y i = ∑ r ∈ Finset.range A.length, gIdx y i A r := by
  induction A using List.reverseRecOn with
  | nil => simp [rowDot_eq_sum]
  | append_singleton A t ih =>
    rw [rowDot_append, List.length_append, List.length_singleton, Finset.sum_range_succ, ih]
    congr 1
    · apply Finset.sum_congr rfl
      intro r hr
      unfold gIdx
      rw [List.getElem?_append_left (by simpa using hr)]
    · rw [rowDot_eq_sum]
      simp [gIdx]

/-- Splitting a row into owned and other entries. -/
theorem rowDot_split (A : Coot K) (y : Nat → K) (i : Nat) (own : List Nat) (hn : own.Nodup) (hr : ∀ r ∈ own, r < A.length) :
    rowDot A y i = (own.map (gIdx y i A)).sum + ∑ r ∈ Finset.range A.length \ own.toFinset, gIdx y i A r := by
  rw [rowDot_eq_range, ← Finset.sum_sdiff (s₁ := own.toFinset) (s₂ := Finset.range A.length)]
  · rw [add_comm, List.sum_toFinset _ hn]
  · intro r h
    simp only [List.mem_toFinset] at h
    simpa using hr r h

/-- What has happened to the matrix after the entries `acc` were written. -/
structure FillOK (A0 : Coot K) (own : List Nat) (acc : Coot K) (s : Fill K) : Prop where
  pos : s.added ≠ [] → s.free = []
  len : s.A.length = A0.length + s.added.length
  add : s.added = List.range' A0.length s.added.length
  ents : ∃ used, own = s.free ++ used ∧ (used.reverse ++ s.added).map (fun r => s.A[r]?) = acc.map some ∧
    ∀ r, r < A0.length → r ∉ used → s.A[r]? = A0[r]?

theorem fillOK_init (A0 : Coot K) (own : List Nat) : FillOK A0 own [] ⟨A0, own, []⟩ :=
  ⟨by simp, by simp, by simp, [], by simp, by simp, fun _ _ _ => rfl⟩

theorem entryStep_ok {A0 : Coot K} {own : List Nat} (hn : own.Nodup) (hr : ∀ r ∈ own, r < A0.length) {acc : Coot K} {s : Fill K}
    (h : FillOK A0 own acc s) (col : V → Option Nat) (row : Nat) (vx : V × K) (j : Nat) (hj : col vx.1 = some j) :
    ∃ s', entryStep col row s vx = .ok s' ∧ FillOK A0 own (acc ++ [(row, j, vx.2)]) s' := by
  unfold entryStep
  rw [hj]
  obtain ⟨used, hu, hmap, hrest⟩ := h.ents
  cases hf : s.free.getLast? with
  | some r =>
    have hfree : s.free = s.free.dropLast ++ [r] := by
      obtain ⟨l, hl⟩ := List.getLast?_eq_some_iff.1 hf
      rw [hl]; simp
    have hadd : s.added = [] := by
      by_contra hh
      rw [h.pos hh] at hf
      cases hf
    have hlen : s.A.length = A0.length := by rw [h.len, hadd]; rfl
    have hr' : r < s.A.length := by
      rw [hlen]; apply hr; rw [hu, hfree]; simp
    have hru : r ∉ used := by
      intro hh
      rw [hu, hfree] at hn
      have := (List.nodup_append.1 hn).2.2 r (by simp) r hh
      exact this rfl
    refine ⟨_, rfl, ?_, ?_, ?_, r :: used, ?_, ?_, ?_⟩
    · intro hh; exact absurd hadd hh
    · simp [hlen, hadd]
    · simp [hadd]
    · show own = s.free.dropLast ++ r :: used
      rw [hu]
      conv_lhs => rw [hfree]
      simp
    · dsimp only
      rw [hadd, List.append_nil] at hmap ⊢
      rw [List.reverse_cons, List.map_append, List.map_append]
      congr 1
      · rw [← hmap]
        apply List.map_congr_left
        intro q hq
        rw [List.getElem?_set_ne]
        rintro rfl
        exact hru (List.mem_reverse.1 hq)
      · simp [hr']
    · intro q hq hqu
      rw [List.mem_cons, not_or] at hqu
      show (s.A.set r _)[q]? = _
      rw [List.getElem?_set_ne (fun hh => hqu.1 hh.symm)]
      exact hrest q hq hqu.2
  | none =>
    have hfree : s.free = [] := by simpa using hf
    refine ⟨_, rfl, ?_, ?_, ?_, used, ?_, ?_, ?_⟩
    · intro _; rfl
    · simp [h.len]; omega
    · dsimp only
      rw [List.length_append, List.length_singleton, List.range'_concat, ← h.add, h.len]
      simp
    · rw [hu, hfree]
    · dsimp only
      rw [← List.append_assoc, List.map_append (l₂ := [s.A.length]), List.map_append (l₂ := [(row, j, vx.2)])]
      congr 1
      · rw [← hmap]
        apply List.map_congr_left
        intro q hq
        rw [List.getElem?_append_left]
        rcases List.mem_append.1 hq with hq | hq
        · have := hr q (by rw [hu, hfree]; simpa using hq)
          rw [h.len]; omega
        · rw [h.add, List.mem_range'_1] at hq
          rw [h.len]; omega
      · simp
    · intro q hq hqu
      show (s.A ++ _)[q]? = _
      rw [List.getElem?_append_left (by rw [h.len]; omega)]
      exact hrest q hq hqu

theorem entryFold_ok {A0 : Coot K} {own : List Nat} (hn : own.Nodup) (hr : ∀ r ∈ own, r < A0.length) (col : V → Option Nat)
    (cv : V → Nat) (row : Nat) (e : List (V × K)) (hcol : ∀ vx ∈ e, col vx.1 = some (cv vx.1)) : ∀ {acc : Coot K} {s : Fill K},
    FillOK A0 own acc s →
    ∃ s', e.foldlM (entryStep col row) s = .ok s' ∧ FillOK A0 own (acc ++ e.map (fun vx => (row, cv vx.1, vx.2))) s' := by
  induction e with
  | nil => intro acc s h; exact ⟨s, rfl, by simpa using h⟩
  | cons vx e ih =>
    intro acc s h
    obtain ⟨s1, h1, h2⟩ := entryStep_ok hn hr h col row vx _ (hcol vx (by simp))
    obtain ⟨s2, h3, h4⟩ := ih (fun v hv => hcol v (by simp [hv])) h2
    refine ⟨s2, ?_, by simpa using h4⟩
    rw [List.foldlM_cons, h1]
    exact h3

/-- The entries of the terms of a posynomial that starts at row `m`. -/
def blockEntries (cv : V → Nat) (m : Nat) (ts : List ((HV V K × K) × Nat)) : Coot K :=
  ts.flatMap (fun tn => tn.1.1.items.map (fun vx => (m + tn.2, cv vx.1, vx.2)))

theorem termFold_ok {A0 : Coot K} {own : List Nat} (hn : own.Nodup) (hr : ∀ r ∈ own, r < A0.length) (col : V → Option Nat)
    (cv : V → Nat) (m : Nat) (ts : List ((HV V K × K) × Nat)) (hcol : ∀ tn ∈ ts, ∀ vx ∈ tn.1.1.items, col vx.1 = some (cv vx.1))
    (N : Nat) (hts : ∀ tn ∈ ts, m + tn.2 < N) : ∀ {acc : Coot K} {s : Rows V K},
    FillOK A0 own acc s.fill → s.exps.length = N → s.cs.length = N →
    ∃ s', ts.foldlM (termStep col m) s = .ok s' ∧ FillOK A0 own (acc ++ blockEntries cv m ts) s'.fill ∧
      s'.exps = ts.foldl (fun l tn => l.set (m + tn.2) tn.1.1) s.exps ∧ s'.cs = ts.foldl (fun l tn => l.set (m + tn.2) tn.1.2) s.cs := by
  induction ts with
  | nil => intro acc s h _ _; exact ⟨s, rfl, by simpa [blockEntries] using h, rfl, rfl⟩
  | cons tn ts ih =>
    intro acc s h he hc
    obtain ⟨f, h1, h2⟩ := entryFold_ok hn hr col cv (m + tn.2) tn.1.1.items (hcol tn (by simp)) h
    have hlt := hts tn (by simp)
    have hstep : termStep col m s tn = .ok ⟨s.exps.set (m + tn.2) tn.1.1, s.cs.set (m + tn.2) tn.1.2, f⟩ := by
      unfold termStep
      rw [if_pos (by rw [he, hc]; exact ⟨hlt, hlt⟩), h1]
      rfl
    obtain ⟨s2, h3, h4, h5, h6⟩ := ih (fun t ht => hcol t (by simp [ht])) (fun t ht => hts t (by simp [ht]))
      (s := ⟨s.exps.set (m + tn.2) tn.1.1, s.cs.set (m + tn.2) tn.1.2, f⟩) h2 (by simpa using he) (by simpa using hc)
    refine ⟨s2, ?_, ?_, h5, h6⟩
    · rw [List.foldlM_cons, hstep]
      exact h3
    · simpa [blockEntries] using h4

theorem zeroOut_get (free : List Nat) : ∀ (A : Coot K) (r : Nat),
    (zeroOut A free)[r]? = if r ∈ free ∧ r < A.length then some (0, 0, 0) else A[r]? := by
  induction free with
  | nil => intro A r; simp [zeroOut]
  | cons q free ih =>
    intro A r
    have : zeroOut A (q :: free) = zeroOut (A.set q (0, 0, 0)) free := rfl
    rw [this, ih, List.length_set]
    by_cases hr : r < A.length
    · by_cases hf : r ∈ free
      · rw [if_pos ⟨hf, hr⟩, if_pos ⟨by simp [hf], hr⟩]
      · rw [if_neg (fun h => hf h.1)]
        by_cases hq : r = q
        · subst hq
          rw [if_pos ⟨by simp, hr⟩, List.getElem?_set_self hr]
        · rw [if_neg (by simp [hf, hq]), List.getElem?_set_ne (fun h => hq h.symm)]
    · rw [if_neg (fun h => hr h.2), if_neg (fun h => hr h.2)]
      rw [List.getElem?_eq_none (by simpa using hr), List.getElem?_eq_none (by simpa using hr)]

theorem zeroOut_length (free : List Nat) (A : Coot K) : (zeroOut A free).length = A.length := by
  induction free generalizing A with
  | nil => rfl
  | cons q free ih =>
    have : zeroOut A (q :: free) = zeroOut (A.set q (0, 0, 0)) free := rfl
    rw [this, ih, List.length_set]

/-- What the update of one posynomial does to the matrix. -/
theorem fill_done {A0 : Coot K} {own : List Nat} (hn : own.Nodup) (hr : ∀ r ∈ own, r < A0.length) {acc : Coot K} {s : Fill K}
    (h : FillOK A0 own acc s) :
    (own ++ s.added).Nodup ∧ (∀ r ∈ own ++ s.added, r < (zeroOut s.A s.free).length) ∧ A0.length ≤ (zeroOut s.A s.free).length ∧
    (∀ r ∈ s.added, A0.length ≤ r) ∧ (∀ r, r < A0.length → r ∉ own → (zeroOut s.A s.free)[r]? = A0[r]?) ∧
    ∀ y i, ((own ++ s.added).map (gIdx y i (zeroOut s.A s.free))).sum = rowDot acc y i ∧
      rowDot (zeroOut s.A s.free) y i = rowDot acc y i + (rowDot A0 y i - (own.map (gIdx y i A0)).sum) := by
  obtain ⟨used, hu, hmap, hrest⟩ := h.ents
  have hadd : ∀ r, r ∈ s.added ↔ A0.length ≤ r ∧ r < A0.length + s.added.length := by
    intro r
    conv_lhs => rw [h.add]
    rw [List.mem_range'_1]
  have hnd : (own ++ s.added).Nodup := by
    rw [List.nodup_append]
    refine ⟨hn, by rw [h.add]; exact List.nodup_range', ?_⟩
    rintro a ha b hb rfl
    have := hr a ha
    have := ((hadd a).1 hb).1
    omega
  have hlen : (zeroOut s.A s.free).length = A0.length + s.added.length := by rw [zeroOut_length, h.len]
  have hin : ∀ r ∈ own ++ s.added, r < (zeroOut s.A s.free).length := by
    intro r hh
    rw [hlen]
    rcases List.mem_append.1 hh with hh | hh
    · have := hr r hh; omega
    · exact ((hadd r).1 hh).2
  have hkeep : ∀ r, r < A0.length → r ∉ own → (zeroOut s.A s.free)[r]? = A0[r]? := by
    intro r hlt hno
    rw [zeroOut_get, if_neg (fun hh => hno (by rw [hu]; simp [hh.1]))]
    exact hrest r hlt (fun hh => hno (by rw [hu]; simp [hh]))
  refine ⟨hnd, hin, by omega, fun r hh => ((hadd r).1 hh).1, hkeep, ?_⟩
  intro y i
  have hfree : ∀ r ∈ s.free, gIdx y i (zeroOut s.A s.free) r = 0 := by
    intro r hh
    have hlt : r < s.A.length := by
      have := hin r (by rw [hu]; simp [hh])
      rwa [zeroOut_length] at this
    unfold gIdx
    rw [zeroOut_get, if_pos ⟨hh, hlt⟩]
    simp [gAt]
  have hufree : ∀ r ∈ used.reverse ++ s.added, gIdx y i (zeroOut s.A s.free) r = ((s.A[r]?).map (gAt y i)).getD 0 := by
    intro r hh
    unfold gIdx
    rw [zeroOut_get, if_neg]
    rintro ⟨hf, _⟩
    rw [hu, List.append_assoc] at hnd
    exact (List.nodup_append.1 hnd).2.2 r hf r (by simpa using hh) rfl
  have hsum : ((own ++ s.added).map (gIdx y i (zeroOut s.A s.free))).sum = rowDot acc y i := by
    rw [hu, List.append_assoc, List.map_append, List.sum_append]
    have h0 : (s.free.map (gIdx y i (zeroOut s.A s.free))).sum = 0 := by
      apply List.sum_eq_zero
      intro x hx
      obtain ⟨r, hr, rfl⟩ := List.mem_map.1 hx
      exact hfree r hr
    rw [h0, zero_add]
    have hperm : ((used ++ s.added).map (gIdx y i (zeroOut s.A s.free))).Perm
        ((used.reverse ++ s.added).map (gIdx y i (zeroOut s.A s.free))) :=
      ((List.reverse_perm used).symm.append_right _).map _
    rw [hperm.sum_eq, List.map_congr_left hufree]
    have : (used.reverse ++ s.added).map (fun r => ((s.A[r]?).map (gAt y i)).getD 0) =
        ((used.reverse ++ s.added).map (fun r => s.A[r]?)).map (fun o => (o.map (gAt y i)).getD 0) := by
      rw [List.map_map]; rfl
    rw [this, hmap, List.map_map, rowDot_eq_sum]
    rfl
  refine ⟨hsum, ?_⟩
  rw [rowDot_split _ y i (own ++ s.added) hnd hin, hsum, rowDot_split A0 y i own hn hr]
  rw [add_sub_cancel_left]
  congr 1
  have hset : Finset.range (zeroOut s.A s.free).length \ (own ++ s.added).toFinset = Finset.range A0.length \ own.toFinset := by
    ext r
    simp only [Finset.mem_sdiff, Finset.mem_range, List.mem_toFinset, List.mem_append, not_or, hlen, hadd]
    constructor
    · rintro ⟨h1, h2, h3⟩
      exact ⟨by omega, h2⟩
    · rintro ⟨h1, h2⟩
      exact ⟨by omega, h2, by omega⟩
  rw [hset]
  apply Finset.sum_congr rfl
  intro r hh
  simp only [Finset.mem_sdiff, Finset.mem_range, List.mem_toFinset] at hh
  unfold gIdx
  rw [hkeep r hh.1 hh.2]


/-! ### The loop of `localsolve` -/

section Loop
variable {eps reltol : K} {lim : Nat} {warns : Bool} {solve : Nat → Option K}

/-- What holds at the start of every pass. -/
structure LInv (eps : K) (warns : Bool) (solve : Nat → Option K) (s : Local K) : Prop where
  all : ∀ n, n < s.gps → ∃ c, solve n = some c
  cost : ∀ c, s.cost = some c → ∃ n, s.gps = n + 1 ∧ solve n = some c
  rel : ∀ r, s.rel = some r → ∃ n p c, s.gps = n + 2 ∧ solve n = some p ∧ solve (n + 1) = some c ∧ s.cost = some c ∧
    r = (p - c) / (p + c) ∧ (warns = true → c * (1 - eps) ≤ p + eps)
  fresh : s.gps = 0 → s.cost = none
  none_warn : s.cost = none → s.gps = 0 ∨ s.warned = true
  quiet : warns = true → s.warned = false → ∀ n p c, n + 1 < s.gps → solve n = some p → solve (n + 1) = some c →
    c * (1 - eps) ≤ p + eps
  loud : s.warned = true → ∃ n p c, n + 1 < s.gps ∧ solve n = some p ∧ solve (n + 1) = some c ∧ p + eps < c * (1 - eps)

theorem linv_init : LInv eps warns solve ⟨0, none, none, false⟩ :=
  ⟨by simp, by simp, by simp, by simp, by simp, by simp, by simp⟩

theorem localStep_inv {s s' : Local K} (h : LInv eps warns solve s) (hs : localStep eps reltol lim warns solve s = .inr s') :
    LInv eps warns solve s' ∧ s'.gps = s.gps + 1 ∧ s.gps ≤ lim := by
  unfold localStep at hs
  by_cases h1 : s.rel.all (fun r => decide (reltol < r)) = true
  · rw [if_pos h1] at hs
    by_cases h2 : s.gps > lim
    · rw [if_pos h2] at hs; cases hs
    · rw [if_neg h2] at hs
      cases hc : solve s.gps with
      | none => rw [hc] at hs; cases hs
      | some c =>
        rw [hc] at hs
        have hall : ∀ n, n < s.gps + 1 → ∃ c, solve n = some c := by
          intro n hn
          rcases Nat.lt_succ_iff_lt_or_eq.1 hn with hn | rfl
          · exact h.all n hn
          · exact ⟨c, hc⟩
        cases hp : s.cost with
        | none =>
          rw [hp] at hs
          cases hs
          refine ⟨⟨hall, ?_, ?_, by simp, by simp, ?_, ?_⟩, rfl, by omega⟩
          · intro c' hc'
            cases hc'
            exact ⟨s.gps, rfl, hc⟩
          · intro r hr
            obtain ⟨_, _, c', _, _, _, h5, _⟩ := h.rel r hr
            rw [hp] at h5
            cases h5
          · intro hw hq n p c' hn
            have hn : n + 1 < s.gps + 1 := hn
            rcases h.none_warn hp with h0 | h0
            · omega
            · rw [show s.warned = false from hq] at h0; cases h0
          · intro hw
            obtain ⟨n, p, c', h3, h4⟩ := h.loud hw
            exact ⟨n, p, c', by show n + 1 < s.gps + 1; omega, h4⟩
        | some p =>
          rw [hp] at hs
          dsimp only at hs
          obtain ⟨n, hn, hnp⟩ := h.cost p hp
          by_cases hr : warns = true ∧ p + eps < c * (1 - eps)
          · rw [if_pos hr] at hs
            cases hs
            refine ⟨⟨hall, by simp, by simp, by simp, by simp, by simp, ?_⟩, rfl, by omega⟩
            intro _
            exact ⟨n, p, c, by show n + 1 < s.gps + 1; omega, hnp, by rw [← hn]; exact hc, hr.2⟩
          · rw [if_neg hr] at hs
            cases hs
            have hle : warns = true → c * (1 - eps) ≤ p + eps := fun hw => not_lt.1 (fun hh => hr ⟨hw, hh⟩)
            refine ⟨⟨hall, ?_, ?_, by simp, by simp, ?_, ?_⟩, rfl, by omega⟩
            · intro c' hc'
              cases hc'
              exact ⟨s.gps, rfl, hc⟩
            · intro r hr'
              cases hr'
              exact ⟨n, p, c, by show s.gps + 1 = n + 2; omega, hnp, by rw [← hn]; exact hc, rfl, rfl, hle⟩
            · intro hw hq k p' c' hk hp' hc'
              have hk : k + 1 < s.gps + 1 := hk
              by_cases hkn : k = n
              · subst hkn
                rw [hnp] at hp'
                cases hp'
                rw [← hn, hc] at hc'
                cases hc'
                exact hle hw
              · exact h.quiet hw hq k p' c' (by omega) hp' hc'
            · intro hw
              obtain ⟨k, p', c', h3, h4⟩ := h.loud hw
              exact ⟨k, p', c', by show k + 1 < s.gps + 1; omega, h4⟩
  · rw [if_neg h1] at hs; cases hs

theorem localLoop_inv (n : Nat) : ∀ {s : Local K} {o : Outcome K}, LInv eps warns solve s →
    localLoop eps reltol lim warns solve n s = some o → s.gps ≤ lim + 1 →
    ∃ s', LInv eps warns solve s' ∧ s'.gps ≤ lim + 1 ∧ localStep eps reltol lim warns solve s' = .inl o := by
  induction n with
  | zero => intro s o _ h; cases h
  | succ n ih =>
    intro s o hi h hg
    unfold localLoop at h
    cases hs : localStep eps reltol lim warns solve s with
    | inl o' =>
      rw [hs] at h
      cases h
      exact ⟨s, hi, hg, hs⟩
    | inr s' =>
      rw [hs] at h
      obtain ⟨h1, h2, h3⟩ := localStep_inv hi hs
      exact ih h1 h (by omega)

theorem localLoop_ends (n : Nat) : ∀ {s : Local K}, LInv eps warns solve s → lim + 1 < s.gps + n →
    ∃ o, localLoop eps reltol lim warns solve n s = some o ∨ lim + 1 < s.gps := by
  induction n with
  | zero =>
    intro s _ h
    exact ⟨.limit s, Or.inr h⟩
  | succ n ih =>
    intro s hi h
    unfold localLoop
    cases hs : localStep eps reltol lim warns solve s with
    | inl o => exact ⟨o, Or.inl rfl⟩
    | inr s' =>
      obtain ⟨h1, h2, h3⟩ := localStep_inv hi hs
      obtain ⟨o, ho⟩ := ih h1 (by omega)
      rcases ho with ho | ho
      · exact ⟨o, Or.inl ho⟩
      · omega

/-- `localsolve` ends. -/
theorem localsolve_ends : ∃ o, localsolve eps reltol lim warns solve = some o := by
  obtain ⟨o, ho⟩ := localLoop_ends (eps := eps) (reltol := reltol) (lim := lim) (warns := warns) (solve := solve) (lim + 2) linv_init
    (by show lim + 1 < 0 + (lim + 2); omega)
  rcases ho with ho | ho
  · exact ⟨o, ho⟩
  · have : lim + 1 < 0 := ho
    omega

theorem localsolve_inv {o : Outcome K} (h : localsolve eps reltol lim warns solve = some o) :
    ∃ s', LInv eps warns solve s' ∧ s'.gps ≤ lim + 1 ∧ localStep eps reltol lim warns solve s' = .inl o :=
  localLoop_inv _ linv_init h (by show 0 ≤ lim + 1; omega)

theorem localStep_end {s : Local K} {o : Outcome K} (h : localStep eps reltol lim warns solve s = .inl o) :
    (∃ r, s.rel = some r ∧ r ≤ reltol ∧ o = .done s) ∨ (lim < s.gps ∧ o = .limit s) ∨ (solve s.gps = none ∧ s.gps ≤ lim ∧ o = .failed s) := by
  unfold localStep at h
  by_cases h1 : s.rel.all (fun r => decide (reltol < r)) = true
  · rw [if_pos h1] at h
    by_cases h2 : s.gps > lim
    · rw [if_pos h2] at h
      cases h
      exact Or.inr (Or.inl ⟨h2, rfl⟩)
    · rw [if_neg h2] at h
      cases hc : solve s.gps with
      | none =>
        rw [hc] at h
        cases h
        exact Or.inr (Or.inr ⟨rfl, by omega, rfl⟩)
      | some c =>
        rw [hc] at h
        cases hp : s.cost with
        | none => rw [hp] at h; cases h
        | some p =>
          rw [hp] at h
          dsimp only at h
          by_cases hr : warns = true ∧ p + eps < c * (1 - eps)
          · rw [if_pos hr] at h; cases h
          · rw [if_neg hr] at h; cases h
  · rw [if_neg h1] at h
    cases h
    left
    cases hr : s.rel with
    | none => rw [hr] at h1; simp at h1
    | some r =>
      rw [hr] at h1
      exact ⟨r, rfl, by simpa using h1, rfl⟩

end Loop
end SGP
end Verif
