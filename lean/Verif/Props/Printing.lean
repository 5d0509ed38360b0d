import Verif.Lemmas.PrintTrack
import Verif.Lemmas.PyEval

/-!
# C44: printed text denotes the expression
-/

set_option linter.unusedSectionVars false

namespace Verif
open Printing

variable {V D : Type} [DecidableEq V] [AddCommGroup D] [DecidableEq D] [Module ℝ D]

/-- Numbers are written without loss, texts kept in order. -/
noncomputable def plainFmt (V : Type) (win : Bool) : Fmt V ℝ := ⟨win, 3, fun _ => 1 / 2, id, id, id⟩

/-- C44. A text has one meaning at most. -/
theorem C44_unambiguous {pi : ℝ} {pt : V → ℝ} {s : List (Tok V ℝ)} {a b : ℝ} (ha : Reads pi pt s a) (hb : Reads pi pt s b) : a = b := ha.unique hb

/-- C44, for trees. If the operators of the operands can be seen by `parenthesize` and numbers are written without loss, the text of a tree denotes
it, in whatever order `sorted` puts terms and factors. Missing: trees whose operators are hidden between parentheses, powers of powers and
rounded numbers, where the text denotes something else (see the theorems ending in `_fails`). -/
theorem C44_text_partial {F : Fmt V ℝ} (hs : ∀ l, (F.sort l).Perm l) (hpi : 0 < F.pi) (t : Ast V ℝ) (hsafe : Safe F t) (hx : Exact F t) (pt : V → ℝ) :
    Reads F.pi pt (text F t) (astVal pt t) :=
  reads_text hs hpi t hsafe hx

/-- C44, for expressions as written. The text of the object Python computes denotes the expression, if powers are of monomials and the tree kept is
safe and exact. -/
theorem C44_expr_partial {se : Bool} {F : Fmt V ℝ} (hs : ∀ l, (F.sort l).Perm l) (hpi : 0 < F.pi) (e : Expr V) {r : PyVal V ℝ D} {t : Ast V ℝ}
    (h : track se e = .ok (r, t)) (hm : MonoPowers (D := D) se e) (hsafe : Safe F t) (hx : Exact F t) {pt : V → ℝ} (hpt : ∀ v, 0 < pt v) :
    e.build se (fun _ => none) = .ok r ∧ Reads F.pi pt (text F t) (e.denote pt) ∧ ∀ a, Reads F.pi pt (text F t) a → a = e.denote pt := by
  obtain ⟨h1, h2⟩ := track_ok hpt e h
  have h3 := reads_text hs hpi t hsafe hx (pt := pt)
  rw [h2 hm] at h3
  exact ⟨h1, h3, fun a ha => ha.unique h3⟩

/-- C44. Operators outside parentheses are seen if there is one pair of parentheses at most. -/
theorem C44_seen {pi : ℝ} {pt : V → ℝ} {s : List (Tok V ℝ)} {a : ℝ} (h : Reads pi pt s a) (h1 : s.count .lpar ≤ 1) :
    Seen isAdd isAdd s ∧ (.star ∉ s → Seen isMul isDotDiv s) := by
  refine ⟨seen_of_count h.closed h1 (fun t _ ht => ht), fun hst => seen_of_count h.closed h1 (fun t ht hm => ?_)⟩
  cases t <;> simp_all [isMul, isDotDiv]

/-- C44. The text of an object without tree denotes the sum of its terms. -/
theorem C44_flat {F : Fmt V ℝ} (hs : ∀ l, (F.sort l).Perm l) {ts : List (HV V ℝ × ℝ)} (h0 : ts ≠ [])
    (h : ∀ t ∈ ts, F.three t.2 = t.2 ∧ ∀ vx ∈ t.1.items, F.two vx.2 = vx.2) (pi : ℝ) (pt : V → ℝ) : Reads pi pt (flatText F ts) (termsVal pt ts) :=
  reads_flat hs h0 h

/-- C44 fails for powers of posynomials and signomials: the exponent kept is zero, so that the text denotes one. -/
theorem C44_power_fails {F : Fmt V ℝ} (hs : ∀ l, (F.sort l).Perm l) (hpi : 0 < F.pi) {a : Expr V} {n : Nomial V ℝ D} {t : Ast V ℝ}
    (h : track true a = .ok (.nom n, t)) (hc : n.cls ≠ .monomial) (k : Nat) :
    (∃ m : Nomial V ℝ D, track true (.pow a (.int (k + 1))) = .ok (.nom m, .pow t 0)) ∧
      ∀ pt, Safe F (.pow t 0) → Exact F t → Reads F.pi pt (text F (.pow t 0)) 1 := by
  refine ⟨track_pow_zero h hc k, fun pt hsafe hx => ?_⟩
  have := reads_text (F := F) (pt := pt) hs hpi (.pow t 0) hsafe hx
  rwa [astVal, Real.rpow_zero] at this

/-- `(x + y)**2` is printed as `(x + y)^0`. -/
example (F : Fmt ℕ ℝ) : ∃ m : Nomial ℕ ℝ ℝ, track true (.pow (.add (.var 0) (.var 1)) (.int 2)) = .ok (.nom m, .pow (.add (.var 0) (.var 1)) 0) ∧
    text F (.pow (.add (.var 0) (.var 1)) 0) = [.lpar, .name 0, .plus, .name 1, .rpar, .expo 0] ∧
    Reads F.pi (fun _ => 1) [.lpar, .name 0, .plus, .name 1, .rpar, .expo 0] 1 ∧ (Expr.pow (.add (.var 0) (.var 1)) (.int 2)).denote (fun _ : ℕ => 1) = 4 := by
  obtain ⟨n, hn⟩ := (Plus.add (Plus.var (0 : ℕ)) (Plus.var 1)).track (D := ℝ)
  have hc : n.cls ≠ .monomial := by
    have := (track_ok (pt := fun _ => 1) (by simp) _ hn).1
    intro hc
    norm_num [Expr.build, varNomial, PyVal.add, Nomial.add, NMap.add, dictAdd, PyDict.get?, PyDict.set, mkSig, NMap.anyNonpositive, bind, pure, Except.bind,
      Except.pure, HV.beq_def, List.isPerm] at this
    rw [← this] at hc
    cases hc
  obtain ⟨m, hm⟩ := track_pow_zero hn hc 1
  refine ⟨m, ?_, ?_, ?_, ?_⟩
  · simpa using hm
  · simp [text, parenthesize, parensless]
  · have h1 : Reads F.pi (fun _ : ℕ => (1 : ℝ)) [.name 0, .plus, .name 1] (1 + 1) := reads_plus (L := [.name 0]) (R := [.name 1]) (.atom rfl) (.atom rfl)
    have := Reads.pow (x := 0) (Reads.paren h1) (noTop_paren h1.closed) (noTop_paren h1.closed) (by simp) (by intro t ht; simp at ht; subst ht; rfl)
    rw [Real.rpow_zero] at this
    exact this
  · norm_num [Expr.denote, PyExpo.toK]

/-- C44 fails where operators are hidden between parentheses: `((x + y)*z + w*(u + v))*t` is printed as `(x + y)·z + w·(u + v)·t`. -/
theorem C44_hidden_fails (F : Fmt ℕ ℝ) (hw : F.win = false) : ∃ (e : Expr ℕ) (m : Nomial ℕ ℝ ℝ) (t : Ast ℕ ℝ) (pt : ℕ → ℝ),
    track true e = .ok (.nom m, t) ∧ (∀ v, 0 < pt v) ∧
    text F t = [.lpar, .name 0, .plus, .name 1, .rpar, .mul, .name 2, .plus, .name 3, .mul, .lpar, .name 4, .plus, .name 5, .rpar, .mul, .name 6] ∧
    e.denote pt = 8 ∧ ∀ a, Reads F.pi pt (text F t) a → a = 6 := by
  have hp := Plus.mul (Plus.add (Plus.mul (Plus.add (Plus.var (0 : ℕ)) (Plus.var 1)) (Plus.var 2))
    (Plus.mul (Plus.var 3) (Plus.add (Plus.var 4) (Plus.var 5)))) (Plus.var 6)
  obtain ⟨m, hm⟩ := hp.track (D := ℝ)
  refine ⟨_, m, _, fun v => if v = 6 then 2 else 1, hm, ?_, ?_, ?_, ?_⟩
  · intro v; dsimp only; split <;> norm_num
  · simp [text, parenthesize, parensless, mulTok, hw]
  · norm_num [Expr.denote]
  · intro a ha
    refine ha.unique ?_
    have e : text F (.mul (.add (.mul (.add (.var 0) (.var 1)) (.var 2)) (.mul (.var 3) (.add (.var 4) (.var 5)))) (.var 6)) =
      (.lpar :: ([.name 0, .plus, .name 1] ++ [.rpar])) ++ .mul :: [.name 2] ++ .plus :: ([.name 3] ++ .mul :: (.lpar :: ([.name 4, .plus, .name 5] ++ [.rpar])) ++ .mul :: [.name 6]) := by
      simp [text, parenthesize, parensless, mulTok, hw]
    rw [e]
    set pt : ℕ → ℝ := fun v => if v = 6 then 2 else 1 with hpt
    have nm : ∀ v : ℕ, Reads F.pi pt [.name v] (pt v) := fun v => .atom rfl
    have nt : ∀ v : ℕ, NoTop isAdd [(.name v : Tok ℕ ℝ)] := fun v => noTop_atom rfl rfl
    have h1 : Reads F.pi pt [.name 0, .plus, .name 1] (pt 0 + pt 1) := reads_plus (L := [.name 0]) (nm 1) (nm 0)
    have h2 : Reads F.pi pt [.name 4, .plus, .name 5] (pt 4 + pt 5) := reads_plus (L := [.name 4]) (nm 5) (nm 4)
    have h3 := reads_times (Or.inl rfl) (nm 2) (nt 2) (Reads.paren h1) (noTop_paren h1.closed)
    have h4 := reads_times (Or.inl rfl) (Reads.paren h2) (noTop_paren h2.closed) (nm 3) (nt 3)
    have h5 := reads_times (Or.inl rfl) (nm 6) (nt 6) h4.1 h4.2
    have h6 := reads_plus h5.1 h3.1
    have ev : (pt 0 + pt 1) * pt 2 + pt 3 * (pt 4 + pt 5) * pt 6 = 6 := by norm_num [hpt]
    rw [ev] at h6
    exact h6

/-- C44 fails for powers of powers: `(x**2)**3` is printed as `x²³`, which is not `x` to the sixth. -/
theorem C44_powers_fails (F : Fmt ℕ ℝ) : ∃ m : Nomial ℕ ℝ ℝ,
    track false (.pow (.pow (.var 0) (.int 2)) (.int 3)) = .ok (.nom m, .pow (.pow (.var 0) 2) 3) ∧
    text F (.pow (.pow (.var 0) 2) 3) = [.name 0, .expo 2, .expo 3] ∧ ∀ (pt : ℕ → ℝ) a, ¬ Reads F.pi pt [.name 0, .expo 2, .expo 3] a := by
  refine ⟨⟨⟨[(⟨[(0, 6)]⟩, 1)], none⟩, .monomial⟩, ?_, ?_, ?_⟩
  · simp only [track, powAst]
    pyeval
  · simp [text, parenthesize, parensless]
  · intro pt a h
    generalize hs : [Tok.name (0 : ℕ), .expo (2 : ℝ), .expo 3] = s at h
    have nt : ∀ p : Tok ℕ ℝ → Bool, p (.name 0) = false → p (.expo 2) = false → p (.expo 3) = false → NoTop p s := by
      intro p h1 h2 h3 t ht
      rw [← hs] at ht
      simp only [outer, List.mem_cons, List.not_mem_nil, or_false] at ht
      rcases ht with rfl | rfl | rfl <;> assumption
    cases h with
    | atom => simp at hs
    | paren => simp at hs
    | add ho hl => exact not_noTop_op hl.closed (plain_add ho) ho (nt _ rfl rfl rfl)
    | mul ho hl => exact not_noTop_op hl.closed (plain_mul ho) ho (nt _ rfl rfl rfl)
    | neg => simp at hs
    | @pow l _ x _ _ _ _ h2 =>
      have e : [Tok.name (0 : ℕ), .expo (2 : ℝ)] ++ [.expo 3] = l ++ [.expo x] := hs
      have := List.append_inj_left' e rfl
      subst this
      have := h2 (.expo 2) (by simp)
      cases this

/-- C44 fails on Windows: `x/(y*z)` is printed as `x/y*z`. -/
theorem C44_windows_fails (F : Fmt ℕ ℝ) (hw : F.win = true) : ∃ (m : Nomial ℕ ℝ ℝ) (t : Ast ℕ ℝ) (pt : ℕ → ℝ),
    track false (.div (.var 0) (.mul (.var 1) (.var 2))) = .ok (.nom m, t) ∧ (∀ v, 0 < pt v) ∧
    text F t = [.name 0, .div, .name 1, .star, .name 2] ∧
    (Expr.div (.var 0) (.mul (.var 1) (.var 2))).denote pt = 1 / 2 ∧ ∀ a, Reads F.pi pt (text F t) a → a = 2 := by
  refine ⟨⟨⟨[(⟨[(0, 1), (1, -1), (2, -1)]⟩, 1)], none⟩, .monomial⟩, .div (.var 0) (.mul (.var 1) (.var 2)), fun v => if v = 2 then 2 else 1, ?_, ?_, ?_, ?_, ?_⟩
  · simp only [track, opAst]
    pyeval
  · intro v; dsimp only; split <;> norm_num
  · simp [text, parenthesize, parensless, mulTok, hw]
  · norm_num [Expr.denote]
  · intro a ha
    refine ha.unique ?_
    have e : text F (.div (.var 0) (.mul (.var 1) (.var 2))) = ([.name 0] ++ .div :: [.name 1]) ++ .star :: [.name 2] := by
      simp [text, parenthesize, parensless, mulTok, hw]
    rw [e]
    set pt : ℕ → ℝ := fun v => if v = 2 then 2 else 1 with hpt
    have nm : ∀ v : ℕ, Reads F.pi pt [.name v] (pt v) := fun v => .atom rfl
    have nt : ∀ v : ℕ, NoTop isAdd [(.name v : Tok ℕ ℝ)] := fun v => noTop_atom rfl rfl
    have h1 := reads_div (nm 1) (nt 1) (noTop_atom rfl rfl) (nm 0) (nt 0)
    have h2 := (reads_times (Or.inr rfl) (nm 2) (nt 2) h1 (noTop_op (nm 0).closed rfl rfl (nt 0) (nt 1))).1
    have ev : pt 0 / pt 1 * pt 2 = 2 := by norm_num [hpt]
    rw [ev] at h2
    exact h2

/-- C44 fails for rounded numbers: a factor that `%.3g` writes as `1` is left out. -/
theorem C44_rounding_fails (F : Fmt V ℝ) (x : V) {c : ℝ} (h3 : F.three c = 1) (hc : cleanPi F c = false) : text F (.mul (.num c) (.var x)) = [.name x] := by
  have h1 : ¬ (1 : ℝ) < 0 := by norm_num
  simp [text, numText, hc, gText, h3, h1, parenthesize, parensless]

/-- Such a number. -/
example : ∃ F : Fmt ℕ ℝ, F.three (10004 / 10000) = 1 ∧ cleanPi F (10004 / 10000) = false :=
  ⟨⟨false, 3, fun _ => 1 / 2, fun _ => 1, id, id⟩, rfl, by norm_num [cleanPi]⟩

/-- C44 fails for zero: `(x - x) + 0` is printed as nothing. -/
theorem C44_empty_fails (F : Fmt ℕ ℝ) (hs : ∀ l, (F.sort l).Perm l) : ∃ m : Nomial ℕ ℝ ℝ,
    track true (.add (.sub (.var 0) (.var 0)) (.num 0)) = .ok (.nom m, .flat []) ∧ text F (.flat []) = [] ∧ ∀ (pt : ℕ → ℝ) a, ¬ Reads F.pi pt [] a := by
  refine ⟨⟨⟨[], none⟩, .posynomial⟩, ?_, ?_, ?_⟩
  · simp only [track, addAst, negAst]
    pyeval
  · have := (hs []).eq_nil
    simp [text, flatText, this, join]
  · intro pt a h
    exact h.ne_nil rfl

/-- `x*y/2 + z**0.5*(x - y)` is safe. -/
example : ∃ (m : Nomial ℕ ℝ ℝ) (t : Ast ℕ ℝ),
    track true (.add (.div (.mul (.var 0) (.var 1)) (.num 2)) (.mul (.pow (.var 2) (.float (1 / 2))) (.sub (.var 0) (.var 1)))) = .ok (.nom m, t) ∧
    MonoPowers (D := ℝ) true (.add (.div (.mul (.var (0 : ℕ)) (.var 1)) (.num 2)) (.mul (.pow (.var 2) (.float (1 / 2))) (.sub (.var 0) (.var 1)))) ∧
    Safe (plainFmt ℕ false) t ∧ Exact (plainFmt ℕ false) t := by
  refine ⟨⟨⟨[(⟨[(0, 1), (1, 1)]⟩, 1 / 2), (⟨[(2, 1 / 2), (0, 1)]⟩, 1), (⟨[(2, 1 / 2), (1, 1)]⟩, -1)], none⟩, .signomial⟩,
    .add (.div (.mul (.var 0) (.var 1)) (.num 2)) (.mul (.pow (.var 2) (1 / 2)) (.add (.var 0) (.neg (.var 1)))), ?_, ?_, ?_, ?_⟩
  · simp only [track, addAst, negAst, opAst, powAst]
    pyeval
  · refine ⟨⟨⟨trivial, trivial⟩, trivial⟩, ⟨trivial, ?_⟩, trivial, trivial⟩
    intro n hn
    cases hn
    rfl
  · have e1 : text (plainFmt ℕ false) (.mul (.var 0) (.var 1)) = [.name 0, .mul, .name 1] := by simp [text, parenthesize, parensless, mulTok, plainFmt]
    have e2 : text (plainFmt ℕ false) (.num 2) = [.num 2] := by norm_num [text, numText, cleanPi, gText, plainFmt]
    have e3 : text (plainFmt ℕ false) (.pow (.var 2) (1 / 2)) = [.name 2, .expo (1 / 2)] := by simp [text, parenthesize, parensless]
    have e4 : text (plainFmt ℕ false) (.add (.var 0) (.neg (.var 1))) = [.name 0, .minus, .name 1] := by simp [text, parenthesize, parensless]
    have e5 : ∀ v : ℕ, text (plainFmt ℕ false) (.var v) = [.name v] := fun v => rfl
    have sn : ∀ {p : Tok ℕ ℝ → Bool} {s : List (Tok ℕ ℝ)}, Closed s → s.count .lpar ≤ 1 → Seen p p s := fun h1 h2 => seen_of_count h1 h2 (fun _ _ h => h)
    have sv : ∀ {p q : Tok ℕ ℝ → Bool} {t : Tok ℕ ℝ}, plain t = true → p t = false → Seen p q [t] := by
      rintro p q t h1 h2 ⟨u, hu, h3⟩
      rw [outer_plain h1] at hu
      simp only [outer, List.mem_singleton] at hu
      subst hu
      rw [h2] at h3
      cases h3
    refine ⟨⟨⟨trivial, trivial, ?_, ?_⟩, trivial, ?_, ?_, ?_⟩, ⟨trivial, ?_, ?_, ?_⟩, ⟨trivial, trivial, ?_⟩, ?_, ?_⟩
    · exact sv rfl rfl
    · exact sv rfl rfl
    · rw [e1]; exact sn rfl (by simp)
    · rw [e2]; exact sv rfl rfl
    · rw [e2]; exact sv rfl rfl
    · exact sv rfl rfl
    · exact sv rfl rfl
    · intro _ _
      rw [e5]
      exact ⟨by simp, by intro t ht; simp at ht; subst ht; rfl⟩
    · exact sv rfl rfl
    · rw [e3]; exact sn rfl (by simp)
    · rw [e4]; exact sn rfl (by simp)
  · simp [Exact, plainFmt]

end Verif
