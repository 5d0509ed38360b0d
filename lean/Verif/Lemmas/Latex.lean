import Verif.Spec.Latex
import Mathlib.Analysis.SpecialFunctions.Pow.Real

/-!
# Lemmas on LaTeX

Rounding, reading of terms and sums, and rows.
-/

set_option linter.unusedSectionVars false

namespace Verif
namespace Latex
open VK

/-! ### Rounding -/

theorem nearest_abs (x : ℝ) : |(nearest x : ℝ) - x| ≤ 1 / 2 := by
  have h0 := Int.floor_le x
  have h1 := Int.lt_floor_add_one x
  unfold nearest
  rw [abs_le]
  split
  · constructor <;> linarith
  · rename_i h
    split
    · rename_i h'; push_cast; constructor <;> linarith
    · rename_i h'
      split
      · constructor <;> linarith
      · push_cast; constructor <;> linarith

theorem nearest_int (m : ℤ) : nearest (m : ℝ) = m := by
  unfold nearest
  rw [Int.floor_intCast, sub_self, if_pos (by norm_num)]

theorem near_shown (n : ℕ) (x : ℝ) : Near n x (shown n x) := by
  unfold Near
  by_cases hx : x = 0
  · have : nearest 0 = 0 := by simpa using nearest_int 0
    simp [hx, shown, this]
  · have hp : (0 : ℝ) < 10 ^ (place x - n + 1) := by positivity
    have hle : (10 : ℝ) ^ place x ≤ |x| := by
      have := Int.zpow_log_le_self (b := 10) (by norm_num) (abs_pos.2 hx)
      exact_mod_cast this
    have e : shown n x - x = ((nearest (x / 10 ^ (place x - n + 1)) : ℝ) - x / 10 ^ (place x - n + 1)) * 10 ^ (place x - n + 1) := by
      rw [sub_mul, div_mul_cancel₀ _ hp.ne']
      rfl
    have e2 : (10 : ℝ) ^ (place x - n + 1) = 10 ^ place x * 10 ^ (1 - n : ℤ) := by
      rw [← zpow_add₀ (by norm_num)]
      congr 1
      ring
    rw [e, abs_mul, abs_of_pos hp]
    refine (mul_le_mul_of_nonneg_right (nearest_abs _) hp.le).trans ?_
    rw [e2]
    have : (0 : ℝ) < 10 ^ (1 - n : ℤ) := by positivity
    nlinarith

theorem shown_short {n : ℕ} {x : ℝ} (h : Short n x) : shown n x = x := by
  obtain ⟨m, k, hm, hx⟩ := h
  unfold shown
  by_cases h0 : x = 0
  · have : nearest 0 = 0 := by simpa using nearest_int 0
    simp [h0, this]
  · have hpl : place x < n + k := by
      unfold place
      rw [← Int.lt_zpow_iff_log_lt (by norm_num) (abs_pos.2 h0), hx, abs_mul, abs_of_pos (by positivity : (0 : ℝ) < 10 ^ k)]
      push_cast
      rw [zpow_add₀ (by norm_num), zpow_natCast]
      refine mul_lt_mul_of_pos_right ?_ (by positivity)
      exact_mod_cast hm
    obtain ⟨d, hd⟩ := Int.eq_ofNat_of_zero_le (by omega : 0 ≤ k - (place x - n + 1))
    have e : x / 10 ^ (place x - n + 1) = ((m * 10 ^ d : ℤ) : ℝ) := by
      rw [div_eq_iff (by positivity)]
      generalize place x - n + 1 = e at hd ⊢
      rw [hx]
      push_cast
      rw [mul_assoc, ← zpow_natCast, ← zpow_add₀ (by norm_num), ← hd]
      congr 2
      ring
    rw [e, nearest_int, ← e, div_mul_cancel₀ _ (by positivity)]

theorem Short.neg {n : ℕ} {x : ℝ} (h : Short n x) : Short n (-x) := by
  obtain ⟨m, k, hm, hx⟩ := h
  exact ⟨-m, k, by rwa [abs_neg], by rw [hx]; push_cast; ring⟩

variable {V : Type}

/-! ### Reading products -/

/-- The value of the text of a power. -/
noncomputable def powVal (pt : V → ℝ) : List (Atom V) → ℝ
  | [.name v, .expo x] => pt v ^ x
  | [.name v] => pt v
  | _ => 1

/-- The text of a power. -/
def IsPow (a : List (Atom V)) : Prop := (∃ v, a = [.name v]) ∨ ∃ v x, a = [.name v, .expo x]

theorem isPow_varText (vx : V × ℝ) : IsPow (varText vx) := by
  unfold varText
  split
  · exact .inr ⟨_, _, rfl⟩
  · exact .inl ⟨_, rfl⟩

theorem powVal_varText (pt : V → ℝ) (vx : V × ℝ) : powVal pt (varText vx) = pt vx.1 ^ shown 2 vx.2 := by
  unfold varText
  split
  · rfl
  · rename_i h
    rw [not_not] at h
    rw [h, Real.rpow_one]
    rfl

theorem flatten_head {L : List (List (Atom V))} (h : ∀ a ∈ L, IsPow a) : L.flatten = [] ∨ ∃ v l, L.flatten = .name v :: l := by
  cases L with
  | nil => exact .inl rfl
  | cons a L =>
    rcases h a (by simp) with ⟨v, rfl⟩ | ⟨v, x, rfl⟩
    · exact .inr ⟨v, _, rfl⟩
    · exact .inr ⟨v, _, rfl⟩

theorem factors_flatten (pt : V → ℝ) : ∀ {L : List (List (Atom V))}, (∀ a ∈ L, IsPow a) → factors pt L.flatten = some (L.map (powVal pt)).prod
  | [], _ => by simp [factors]
  | a :: L, h => by
    have ih := factors_flatten pt (L := L) (fun b hb => h b (by simp [hb]))
    rw [List.flatten_cons, List.map_cons, List.prod_cons]
    rcases h a (by simp) with ⟨v, rfl⟩ | ⟨v, x, rfl⟩
    · rcases flatten_head (L := L) (fun b hb => h b (by simp [hb])) with h0 | ⟨w, l, h0⟩
      · rw [h0] at ih ⊢
        simp only [List.append_nil]
        rw [factors] at ih
        rw [factors, factors, Option.map_some, ← Option.some_injective _ ih]
        · rfl
        · simp
      · rw [h0] at ih ⊢
        simp only [List.cons_append, List.nil_append]
        rw [factors, ih, Option.map_some]
        · rfl
        · simp
    · simp only [List.cons_append, List.nil_append]
      rw [factors, ih, Option.map_some]
      rfl

theorem unsigned_name (pt : V → ℝ) (v : V) (l : List (Atom V)) : unsigned pt (.name v :: l) = factors pt (.name v :: l) := by
  unfold unsigned
  rfl

theorem unsigned_num (pt : V → ℝ) (c : ℝ) {l : List (Atom V)} (h : ∀ k m, l ≠ .ten k :: m) : unsigned pt (.num c :: l) = (factors pt l).map (c * ·) := by
  cases l with
  | nil => rfl
  | cons a l =>
    cases a with
    | ten k => exact absurd rfl (h k l)
    | _ => rfl

theorem product_numText (pt : V → ℝ) (c : ℝ) {l : List (Atom V)} (h : ∀ k m, l ≠ .ten k :: m) :
    product pt (numText c ++ l) = (factors pt l).map (shown 4 c * ·) := by
  have ha : |shown 4 c| / 10 ^ place (shown 4 c) * 10 ^ place (shown 4 c) = |shown 4 c| := div_mul_cancel₀ _ (by positivity)
  unfold numText
  dsimp only
  by_cases hs : shown 4 c < 0
  · rw [if_pos hs]
    split
    · show product pt (.neg :: .num _ :: .ten _ :: l) = _
      rw [product, unsigned, ha, abs_of_neg hs, Option.map_map]
      congr 1
      funext x
      simp
    · show product pt (.neg :: .num _ :: l) = _
      rw [product, unsigned_num pt _ h, abs_of_neg hs, Option.map_map]
      congr 1
      funext x
      simp
  · rw [if_neg hs]
    split
    · show product pt (.num _ :: .ten _ :: l) = _
      rw [product, unsigned, ha, abs_of_nonneg (not_lt.1 hs)]
      simp
    · show product pt (.num _ :: l) = _
      rw [product, unsigned_num pt _ h, abs_of_nonneg (not_lt.1 hs)]
      simp

/-- The coefficient that is shown. -/
noncomputable def shownCoef (pos : Bool) (c : ℝ) : ℝ := if pos ∧ shown 2 c = 1 then 1 else if pos ∧ shown 2 c = -1 then -1 else shown 4 c

theorem numText_ne (c : ℝ) : (numText c : List (Atom V)) ≠ [] ∧ (numText c : List (Atom V)) ≠ [.neg] := by
  unfold numText
  dsimp only
  split <;> split <;> simp

theorem product_coef_nil (pt : V → ℝ) (c : ℝ) : product pt (coefText false c) = some (shownCoef false c) := by
  have := product_numText pt c (l := []) (by simp)
  simpa [coefText, shownCoef, factors] using this

theorem product_coef (pt : V → ℝ) (c : ℝ) {v : V} {l : List (Atom V)} :
    product pt (coefText true c ++ .name v :: l) = (factors pt (.name v :: l)).map (shownCoef true c * ·) := by
  unfold coefText shownCoef
  simp only [true_and]
  split
  · rw [List.nil_append, product, unsigned_name]
    · simp
    · simp
  · split
    · rw [List.singleton_append, product, unsigned_name]
      congr 1
      funext x
      ring
    · exact product_numText pt c (by simp)

theorem before_coef (pt : V → ℝ) (c : ℝ) : before pt (coefText true c) = some (shownCoef true c) := by
  unfold coefText shownCoef
  simp only [true_and]
  split
  · rfl
  · split
    · rfl
    · have h := product_numText pt c (l := []) (by simp)
      rw [List.append_nil] at h
      have hne := numText_ne (V := V) c
      generalize numText (V := V) c = l at h hne
      have : before pt l = product pt l := by
        unfold before
        split
        · exact absurd rfl hne.1
        · exact absurd rfl hne.2
        · rfl
      rw [this, h]
      simp [factors]

theorem atoms_map (l : List (Atom V)) (r : List (Tok V)) (hr : ∀ a m, r ≠ .atom a :: m) : atoms (l.map .atom ++ r) = (l, r) := by
  induction l with
  | nil =>
    cases r with
    | nil => rfl
    | cons t r =>
      cases t with
      | atom a => exact absurd rfl (hr a r)
      | _ => rfl
  | cons a l ih =>
    rw [List.map_cons, List.cons_append, atoms, ih]

/-- A term with its numbers as they are shown. -/
noncomputable def shownTerm (t : HV V ℝ × ℝ) : HV V ℝ × ℝ :=
  (⟨t.1.items.map (fun vx => (vx.1, if vx.2 < 0 then -shown 2 (-vx.2) else shown 2 vx.2))⟩,
    shownCoef (!(t.1.items.filter (fun vx => 0 < vx.2)).isEmpty) t.2)

theorem shown_zero (n : ℕ) : shown n 0 = 0 := by
  have : nearest 0 = 0 := by simpa using nearest_int 0
  simp [shown, this]

theorem monVal_shown {pt : V → ℝ} (hpt : ∀ v, 0 < pt v) (e : List (V × ℝ)) :
    monVal pt (e.map (fun vx => (vx.1, if vx.2 < 0 then -shown 2 (-vx.2) else shown 2 vx.2))) =
      ((e.filter (fun vx => 0 < vx.2)).map (fun vx => pt vx.1 ^ shown 2 vx.2)).prod /
        ((e.filter (fun vx => vx.2 < 0)).map (fun vx => pt vx.1 ^ shown 2 (-vx.2))).prod := by
  induction e with
  | nil => simp [monVal]
  | cons a e ih =>
    unfold monVal at ih ⊢
    rw [List.map_cons, List.map_cons, List.prod_cons, ih, List.filter_cons, List.filter_cons]
    rcases lt_trichotomy a.2 0 with h | h | h
    · rw [if_pos h, if_neg (by simpa using h.le), if_pos (by simpa using h), List.map_cons, List.prod_cons, Real.rpow_neg (hpt _).le, inv_mul_eq_div, div_div,
        mul_comm]
    · rw [if_neg (by simp [h]), if_neg (by simp [h]), if_neg (by simp [h]), h, shown_zero, Real.rpow_zero, one_mul]
    · rw [if_neg (not_lt.2 h.le), if_pos (by simpa using h), if_neg (by simpa using h.le), List.map_cons, List.prod_cons, mul_div_assoc]

theorem sorted_factors {F : Sorting V} (hF : F.Valid) (pt : V → ℝ) {α : Type} (l : List α) (f : α → V × ℝ) :
    factors pt (F.vars (l.map (fun a => varText (f a)))).flatten = some (l.map (fun a => pt (f a).1 ^ shown 2 (f a).2)).prod ∧
    (l ≠ [] → ∃ v m, (F.vars (l.map (fun a => varText (f a)))).flatten = .name v :: m) := by
  have hp := hF.vars (l.map (fun a => varText (f a)))
  have hall : ∀ a ∈ F.vars (l.map (fun a => varText (f a))), IsPow a := by
    intro a ha
    obtain ⟨b, -, rfl⟩ := List.mem_map.1 (hp.mem_iff.1 ha)
    exact isPow_varText _
  refine ⟨?_, fun hl => ?_⟩
  · rw [factors_flatten pt hall, (hp.map _).prod_eq, List.map_map]
    congr 2
    exact List.map_congr_left (fun a _ => powVal_varText pt (f a))
  · rcases flatten_head hall with h | h
    · exfalso
      cases hl' : F.vars (l.map (fun a => varText (f a))) with
      | nil => rw [hl'] at hp; exact hl (List.map_eq_nil_iff.1 hp.symm.eq_nil)
      | cons a L =>
        rw [hl'] at h hall
        rcases hall a (by simp) with ⟨v, rfl⟩ | ⟨v, x, rfl⟩ <;> simp at h
    · exact h

theorem product_names (pt : V → ℝ) {l : List (Atom V)} (h : ∃ v m, l = .name v :: m) : product pt l = factors pt l := by
  obtain ⟨v, m, rfl⟩ := h
  rw [product, unsigned_name]
  simp

/-- The LaTeX of a term, read. -/
theorem read_helper {F : Sorting V} (hF : F.Valid) {pt : V → ℝ} (hpt : ∀ v, 0 < pt v) (t : HV V ℝ × ℝ) :
    readTerm pt (helper F t.2 (t.1.items.filter (fun vx => 0 < vx.2)) (t.1.items.filter (fun vx => vx.2 < 0))) =
      some ((shownTerm t).2 * monVal pt (shownTerm t).1.items) := by
  have hm : monVal pt (shownTerm t).1.items = _ := monVal_shown hpt t.1.items
  rw [hm]
  unfold shownTerm
  dsimp only
  generalize t.1.items.filter (fun vx => 0 < vx.2) = pos
  generalize t.1.items.filter (fun vx => vx.2 < 0) = neg
  obtain ⟨p1, p2⟩ := sorted_factors hF pt pos (fun vx => vx)
  obtain ⟨n1, n2⟩ := sorted_factors hF pt neg (fun vx => (vx.1, -vx.2))
  unfold helper
  dsimp only
  cases pos with
  | nil =>
    cases neg with
    | nil =>
      simp only [List.isEmpty_nil, Bool.not_true, Bool.false_eq_true, false_and, if_false, List.map_nil, List.prod_nil, div_one, mul_one]
      unfold readTerm
      have := atoms_map (coefText (V := V) false t.2) [] (by simp)
      rw [List.append_nil] at this
      rw [this]
      exact product_coef_nil pt t.2
    | cons b neg =>
      simp only [List.isEmpty_nil, List.isEmpty_cons, Bool.not_true, Bool.not_false, Bool.false_eq_true, false_and, if_false, if_true, List.map_nil, List.prod_nil]
      unfold readTerm
      have := atoms_map (V := V) [] [.frac (coefText false t.2) (F.vars ((b :: neg).map (fun vx => varText (vx.1, -vx.2)))).flatten] (by simp)
      rw [List.map_nil, List.nil_append] at this
      rw [this]
      simp only [before, product_coef_nil, product_names pt (n2 (by simp)), n1, bind, Option.bind, pure]
      congr 1
      ring
  | cons a pos =>
    have hl : coefText (!(a :: pos).isEmpty) t.2 = coefText (V := V) true t.2 := rfl
    cases neg with
    | nil =>
      simp only [List.isEmpty_nil, List.isEmpty_cons, Bool.not_true, Bool.not_false, Bool.false_eq_true, and_false, if_false, if_true, List.map_nil, List.prod_nil, div_one]
      unfold readTerm
      have := atoms_map (coefText (V := V) true t.2 ++ (F.vars ((a :: pos).map varText)).flatten) [] (by simp)
      rw [List.append_nil, List.map_append] at this
      rw [this]
      dsimp only
      obtain ⟨v, m, hv⟩ := p2 (by simp)
      rw [hv] at p1
      rw [hv, product_coef, p1]
      rfl
    | cons b neg =>
      simp only [List.isEmpty_cons, Bool.not_false, and_self, if_true]
      unfold readTerm
      rw [atoms_map _ _ (by simp)]
      simp only [before_coef, product_names pt (n2 (by simp)), product_names pt (p2 (by simp)), p1, n1, bind, Option.bind, pure]

/-! ### Reading sums -/

/-- No plus signs and relations. -/
def Bare (l : List (Tok V)) : Prop := ∀ t ∈ l, (∃ a, t = .atom a) ∨ ∃ p q, t = .frac p q

theorem bare_helper (F : Sorting V) (c : ℝ) (pos neg : List (V × ℝ)) : Bare (helper F c pos neg) := by
  have hm : ∀ l : List (Atom V), Bare (l.map .atom) := by
    intro l t ht
    obtain ⟨a, -, rfl⟩ := List.mem_map.1 ht
    exact .inl ⟨a, rfl⟩
  have hf : ∀ p q : List (Atom V), Bare [.frac p q] := by
    intro p q t ht
    exact .inr ⟨p, q, List.mem_singleton.1 ht⟩
  have hap : ∀ {l r : List (Tok V)}, Bare l → Bare r → Bare (l ++ r) := fun h h' t ht => (List.mem_append.1 ht).elim (h t) (h' t)
  unfold helper
  dsimp only
  split
  · exact hap (hm _) (hf _ _)
  · split
    · exact hf _ _
    · split
      · exact hap (hm _) (hm _)
      · exact hm _

theorem parts_bare {l : List (Tok V)} (h : Bare l) : parts l = [l] := by
  induction l with
  | nil => rfl
  | cons t l ih =>
    have := ih (fun u hu => h u (by simp [hu]))
    rcases h t (by simp) with ⟨a, rfl⟩ | ⟨p, q, rfl⟩ <;> rw [parts, this] <;> simp

theorem parts_append {l : List (Tok V)} (h : Bare l) (r : List (Tok V)) : parts (l ++ .plus :: r) = l :: parts r := by
  induction l with
  | nil => rfl
  | cons t l ih =>
    have := ih (fun u hu => h u (by simp [hu]))
    rw [List.cons_append]
    rcases h t (by simp) with ⟨a, rfl⟩ | ⟨p, q, rfl⟩ <;> rw [parts, this] <;> simp

theorem parts_join : ∀ {L : List (List (Tok V))}, L ≠ [] → (∀ l ∈ L, Bare l) → parts (join L) = L
  | [], h, _ => absurd rfl h
  | [l], _, h => by rw [join]; exact parts_bare (h l (by simp))
  | l :: m :: L, _, h => by
    rw [join, parts_append (h l (by simp)), parts_join (by simp) (fun k hk => h k (by simp [hk]))]
    simp

theorem mapM_some {α β : Type} {f : α → Option β} {g : α → β} : ∀ {L : List α}, (∀ a ∈ L, f a = some (g a)) → L.mapM f = some (L.map g)
  | [], _ => rfl
  | a :: L, h => by
    rw [List.mapM_cons, h a (by simp), mapM_some (L := L) (fun b hb => h b (by simp [hb]))]
    rfl

/-- The LaTeX of a nomial, read. -/
theorem read_nomial {F : Sorting V} (hF : F.Valid) {pt : V → ℝ} (hpt : ∀ v, 0 < pt v) {ts : List (HV V ℝ × ℝ)} (hne : ts ≠ []) :
    read pt (nomial F ts) = some (termsVal pt (ts.map shownTerm)) := by
  unfold read nomial
  generalize hg : (fun t : HV V ℝ × ℝ => helper F t.2 (t.1.items.filter (fun vx => 0 < vx.2)) (t.1.items.filter (fun vx => vx.2 < 0))) = g
  have hp := hF.terms (ts.map g)
  have hmem : ∀ l ∈ F.terms (ts.map g), ∃ t ∈ ts, l = g t := by
    intro l hl
    obtain ⟨t, ht, rfl⟩ := List.mem_map.1 (hp.mem_iff.1 hl)
    exact ⟨t, ht, rfl⟩
  have hread : ∀ t, readTerm pt (g t) = some ((shownTerm t).2 * monVal pt (shownTerm t).1.items) := by
    intro t
    rw [← hg]
    exact read_helper hF hpt t
  rw [parts_join, mapM_some (g := fun l => (readTerm pt l).getD 0), Option.map_some, (hp.map _).sum_eq, List.map_map]
  · unfold termsVal
    rw [List.map_map]
    congr 2
    refine List.map_congr_left (fun t _ => ?_)
    show (readTerm pt (g t)).getD 0 = _
    rw [hread]
    rfl
  · intro l hl
    obtain ⟨t, -, rfl⟩ := hmem l hl
    rw [hread]
    rfl
  · intro h0
    rw [h0] at hp
    exact hne (List.map_eq_nil_iff.1 hp.symm.eq_nil)
  · intro l hl
    obtain ⟨t, -, rfl⟩ := hmem l hl
    rw [← hg]
    exact bare_helper _ _ _ _

theorem near_shownTerm (t : HV V ℝ × ℝ) : NearTerm t (shownTerm t) where
  coef := by
    unfold shownTerm shownCoef
    dsimp only
    split
    · rename_i h
      refine .inr ⟨.inl rfl, ?_, ?_⟩
      · rw [← h.2]; exact near_shown 2 t.2
      · have := h.1
        rw [Bool.not_eq_true', List.isEmpty_eq_false_iff_exists_mem] at this
        obtain ⟨vx, hvx⟩ := this
        exact ⟨vx, (List.mem_filter.1 hvx).1, by simpa using (List.mem_filter.1 hvx).2⟩
    · split
      · rename_i h
        refine .inr ⟨.inr rfl, ?_, ?_⟩
        · rw [← h.2]; exact near_shown 2 t.2
        · have := h.1
          rw [Bool.not_eq_true', List.isEmpty_eq_false_iff_exists_mem] at this
          obtain ⟨vx, hvx⟩ := this
          exact ⟨vx, (List.mem_filter.1 hvx).1, by simpa using (List.mem_filter.1 hvx).2⟩
      · exact .inl (near_shown 4 t.2)
  expos := by
    unfold shownTerm
    dsimp only
    rw [List.forall₂_map_right_iff]
    refine List.forall₂_same.2 (fun vx _ => ⟨rfl, ?_⟩)
    dsimp only
    split
    · have := near_shown 2 (-vx.2)
      unfold Near at this ⊢
      rw [abs_neg] at this
      rwa [← abs_neg, show -(-shown 2 (-vx.2) - vx.2) = shown 2 (-vx.2) - -vx.2 by ring]
    · exact near_shown 2 vx.2

theorem shownTerm_fits {t : HV V ℝ × ℝ} (h : Fits t) : shownTerm t = t := by
  unfold shownTerm
  refine Prod.ext ?_ ?_
  · dsimp only
    have : t.1.items.map (fun vx => (vx.1, if vx.2 < 0 then -shown 2 (-vx.2) else shown 2 vx.2)) = t.1.items := by
      conv_rhs => rw [← List.map_id t.1.items]
      refine List.map_congr_left (fun vx hvx => ?_)
      rw [shown_short (h.expos vx hvx), shown_short (h.expos vx hvx).neg, neg_neg, ite_self]
      rfl
    rw [this]
  · dsimp only
    have hn := near_shown 2 t.2
    unfold shownCoef
    split
    · rename_i h'; rw [h'.2] at hn; exact (h.one hn).symm
    · split
      · rename_i h'; rw [h'.2] at hn; exact (h.minus hn).symm
      · exact shown_short h.coef

theorem sides_append {l : List (Tok V)} (hl : ∀ o, .rel o ∉ l) (o : Outline.Oper) (r : List (Tok V)) : sides (l ++ .rel o :: r) = some (l, o, r) := by
  induction l with
  | nil => rfl
  | cons t l ih =>
    have := ih (fun o h => hl o (by simp [h]))
    rw [List.cons_append]
    cases t with
    | rel o' => exact absurd (by simp) (hl o')
    | _ => rw [sides, this] <;> simp

theorem join_no_rel : ∀ {L : List (List (Tok V))}, (∀ l ∈ L, Bare l) → ∀ o, .rel o ∉ join L
  | [], _, o => by simp [join]
  | [l], h, o => by
    intro ho
    rcases h l (by simp) _ ho with ⟨a, ha⟩ | ⟨p, q, ha⟩ <;> cases ha
  | l :: m :: L, h, o => by
    have ih := join_no_rel (L := m :: L) (fun k hk => h k (by simp [hk])) o
    rw [join]
    · intro ho
      rcases List.mem_append.1 ho with h1 | h1
      · rcases h l (by simp) _ h1 with ⟨a, ha⟩ | ⟨p, q, ha⟩ <;> cases ha
      · rcases List.mem_cons.1 h1 with h2 | h2
        · cases h2
        · exact ih h2
    · simp

theorem nomial_no_rel {F : Sorting V} (hF : F.Valid) (ts : List (HV V ℝ × ℝ)) (o : Outline.Oper) : .rel o ∉ nomial F ts := by
  refine join_no_rel (fun l hl => ?_) o
  obtain ⟨t, -, rfl⟩ := List.mem_map.1 ((hF.terms _).mem_iff.1 hl)
  exact bare_helper _ _ _ _

/-! ### Rows -/

theorem joinLines_eq : ∀ ls : List Str, joinLines ls = unlines ls
  | [] => rfl
  | [_] => rfl
  | l :: m :: ls => by rw [joinLines, unlines, joinLines_eq (m :: ls)] <;> simp

theorem unlines_cons (l : Str) {ls : List Str} (h : ls ≠ []) : unlines (l :: ls) = l ++ '\n' :: unlines ls := by
  cases ls with
  | nil => exact absurd rfl h
  | cons m ls => rw [unlines]; simp

theorem unlines_append : ∀ {a b : List Str}, a ≠ [] → b ≠ [] → unlines (a ++ b) = unlines a ++ '\n' :: unlines b
  | [], _, h, _ => absurd rfl h
  | [x], b, _, hb => unlines_cons x hb
  | x :: y :: a, b, _, hb => by
    rw [List.cons_append, unlines_cons x (by simp), unlines_append (by simp) hb, unlines_cons x (by simp)]
    simp

/-- Blocks of lines, joined, are all their lines. -/
theorem unlines_cons_block {a b : List Str} {l : List Str} (ha : a ≠ []) (h : unlines l = unlines b) (hl : l = [] ↔ b = []) :
    unlines (unlines a :: l) = unlines (a ++ b) := by
  by_cases h0 : l = []
  · rw [h0, hl.1 h0, List.append_nil, unlines]
  · rw [unlines_cons _ h0, unlines_append ha (fun hb => h0 (hl.2 hb)), h]

theorem line_con {s : Str} (h : ¬ [' ', ' ', ' ', ' ', '&', ' '] <+: s) : line s = row s := by
  unfold line
  rw [if_pos]
  · rfl
  · intro h'
    have := List.take_prefix 6 s
    rw [h'] at this
    exact h this

theorem line_row (s t : Str) : line (row s ++ t) = row s ++ t := by
  unfold line
  rw [if_neg]
  simp [row, indent]

theorem rows_nil {l : List Item} {rs : List Str} (h : Rows l rs) : l = [] ↔ rs = [] := by
  induction h with
  | nil => simp
  | con _ _ => simp
  | empty _ _ => simp
  | set _ _ ih _ => simpa using fun h => absurd (ih.2 h) (by simp)

theorem unlines_head {x : Str} {ls : List Str} : ∃ t, unlines (x :: ls) = x ++ t := by
  cases ls with
  | nil => exact ⟨[], by rw [unlines, List.append_nil]⟩
  | cons m ls => exact ⟨_, unlines_cons x (by simp)⟩

theorem itemLines_rows {l : List Item} {rs : List Str} (h : Rows l rs) : AllPlain l → unlines (itemLines l) = unlines (rs.map row) := by
  have hnil : ∀ l, itemLines l = [] ↔ l = [] := by
    intro l
    cases l <;> simp [itemLines]
  induction h with
  | nil => intro _; rfl
  | @con s l rs h ih =>
    intro hp
    rw [AllPlain, Item.Plain] at hp
    rw [itemLines, Item.latex, line_con hp.1, List.map_cons]
    exact unlines_cons_block (a := [row s]) (by simp) (ih hp.2) ((hnil l).trans ((rows_nil h).trans (by simp)))
  | @empty l rs h ih =>
    intro hp
    rw [AllPlain] at hp
    rw [itemLines, Item.latex, itemLines, joinLines, line_con (by simp), List.map_cons]
    exact unlines_cons_block (a := [row []]) (by simp) (ih hp.2) ((hnil l).trans ((rows_nil h).trans (by simp)))
  | @set i m l rs rs' hm h ih ih' =>
    intro hp
    rw [AllPlain, Item.Plain] at hp
    have hrs : rs ≠ [] := fun h0 => absurd ((rows_nil hm).2 h0) (by simp)
    rw [itemLines, Item.latex, joinLines_eq, ih hp.1, List.map_append]
    obtain ⟨r, rs0, rfl⟩ := List.exists_cons_of_ne_nil hrs
    obtain ⟨t, ht⟩ := unlines_head (x := row r) (ls := rs0.map row)
    rw [show line (unlines ((r :: rs0).map row)) = unlines ((r :: rs0).map row) by rw [List.map_cons, ht, line_row]]
    exact unlines_cons_block (by simp) (ih' hp.2) ((hnil l).trans ((rows_nil h).trans (by simp)))

mutual
theorem rows_item : ∀ i : Item, ∀ {l : List Item} {rs : List Str}, Rows l rs → ∃ rs', Rows (i :: l) rs'
  | .con _, _, _, h => ⟨_, .con h⟩
  | .set [], _, _, h => ⟨_, .empty h⟩
  | .set (i :: m), _, _, h => by
    obtain ⟨rs', h'⟩ := rows_exist (i :: m)
    exact ⟨_, .set h' h⟩

theorem rows_exist : ∀ l : List Item, ∃ rs, Rows l rs
  | [] => ⟨_, .nil⟩
  | i :: l => by
    obtain ⟨rs, h⟩ := rows_exist l
    exact rows_item i h
end

/-- Texts in the order in which they were made. -/
def asMade (V : Type) : Sorting V := ⟨id, id⟩

theorem asMade_valid : (asMade V).Valid := ⟨fun l => .refl l, fun l => .refl l⟩

theorem shown_104 : shown 2 (1.04 : ℝ) = 1 := by
  have hpl : place (1.04 : ℝ) = 0 := by
    unfold place
    rw [abs_of_pos (by norm_num)]
    refine le_antisymm ?_ ?_
    · rw [← Int.lt_add_one_iff, ← Int.lt_zpow_iff_log_lt (by norm_num) (by norm_num)]
      norm_num
    · rw [← Int.zpow_le_iff_le_log (by norm_num) (by norm_num)]
      norm_num
  unfold shown
  rw [hpl]
  have hf : ⌊(1.04 : ℝ) / 10 ^ ((0 : ℤ) - (2 : ℕ) + 1)⌋ = 10 := by
    rw [Int.floor_eq_iff]
    norm_num
  unfold nearest
  rw [hf, if_pos (by norm_num)]
  norm_num

end Latex
end Verif
