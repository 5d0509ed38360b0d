import Verif.Lemmas.MosekCli
import Verif.Props.Program

/-! Properties of the files exchanged with the command line solver: C57. -/

set_option linter.unusedSectionVars false

namespace Verif
open MosekCli GP PyDict
variable {V K : Type} [DecidableEq V] [Field K] [LinearOrder K]

/-- C57, writing: the file describes exactly the data given, for every way of writing numbers as words that can be read back. -/
theorem C57_write (ws : Char → Bool) (fi : Nat → Str) (fe : K → Str) (pi : Str → Option Nat) (pe : Str → Option K) (hs : ws ' ' = true)
    (hn : ws '\n' = true) (fl : K → Prop) (hN : Numerals ws fi fe pi pe fl) (c : List K) (A : List (Nat × Nat × K)) (p : List Nat) (nc nv : Nat)
    (hcf : ∀ x ∈ c, fl x) (hAf : ∀ t ∈ A, fl t.2.2)
    (hp : p.getLast? = some nc) (hl : p.length = c.length)
    (hr : ∀ i, i < c.length ↔ ∃ t ∈ A, t.1 = i) (hc : ∀ j, j < nv ↔ ∃ t ∈ A, t.2.1 = j) :
    ∃ s, writeFile fi fe c A p = some s ∧ readProgram ws pi pe s = some ⟨nc, nv, c, p, A⟩ := by
  have e1 : extent (A.map (fun t => t.1)) = c.length := extent_eq (by simpa using hr)
  have e2 : extent (A.map (fun t => t.2.1)) = nv := extent_eq (by simpa using hc)
  have := read_write (c := c) (A := A) hs hn hN hp hcf hAf e1.symm hl
  rwa [e2] at this

/-- Rows and columns of the generated matrix. -/
theorem gen_extent (hs : List (Hmap V ℝ)) (hw : ∀ h ∈ hs, ∀ t ∈ h.terms, (t.1.items.map (·.1)).Nodup) (hv : (genLoop hs).varlocs ≠ []) :
    (∀ i, i < (genLoop hs).cs.length ↔ ∃ t ∈ (genLoop hs).A, t.1 = i) ∧
    (∀ j, j < (genLoop hs).varlocs.length ↔ ∃ t ∈ (genLoop hs).A, t.2.1 = j) := by
  have hw' : ∀ t ∈ allTerms hs, WF t.1.items := by
    intro t ht
    obtain ⟨h, hh, ht⟩ := List.mem_flatMap.1 ht
    exact GP.wf_nodup.2 (hw h hh t ht)
  have hok := gen_expOK hs hw'
  have hlen : (genLoop hs).cs.length = ((allTerms hs).map (·.1)).length := by rw [gen_cs]; simp
  refine ⟨fun i => ⟨(C20_columns hs hw).2.2 i, ?_⟩, fun j => ⟨?_, ?_⟩⟩
  · rintro ⟨t, ht, rfl⟩
    rw [hlen]
    rcases List.mem_append.1 ht with ht | ht
    · exact (hok.tripZero t ht).2.2
    · obtain ⟨⟨⟨v, locs⟩, j⟩, hz, hm⟩ := List.mem_flatMap.1 ht
      obtain ⟨i, hi, rfl⟩ := List.mem_map.1 hm
      have hmem : (v, locs) ∈ (genLoop hs).varlocs := List.fst_mem_of_mem_zipIdx hz
      rw [locOK_nonempty hok.loc hmem] at hi
      obtain ⟨e, he, -⟩ := mem_occ.1 hi
      exact (List.getElem?_eq_some_iff.1 he).1
  · intro hj
    have hmem := List.getElem_mem hj
    have hl := locOK_nonempty hok.loc (v := ((genLoop hs).varlocs[j]).1) (locs := ((genLoop hs).varlocs[j]).2) hmem
    have hne : ((genLoop hs).varlocs[j]).2 ≠ [] := by
      obtain ⟨i, e, he, hc⟩ := (locOK_mem hok.loc ((genLoop hs).varlocs[j]).1).1 (List.mem_map.2 ⟨_, hmem, rfl⟩)
      rw [hl]
      exact List.ne_nil_of_mem (mem_occ.2 ⟨e, he, hc⟩)
    obtain ⟨i, hi⟩ := List.exists_mem_of_ne_nil _ hne
    refine ⟨(i, j, (genLoop hs).expOf i ((genLoop hs).varlocs[j]).1), List.mem_append_right _ ?_, rfl⟩
    unfold Data.colEntries
    rw [List.mem_flatMap]
    refine ⟨((genLoop hs).varlocs[j], j), ?_, List.mem_map.2 ⟨i, hi, rfl⟩⟩
    have hz := List.getElem_mem (l := (genLoop hs).varlocs.zipIdx) (n := j) (by simpa using hj)
    rw [List.getElem_zipIdx] at hz
    simpa using hz
  · rintro ⟨t, ht, rfl⟩
    rcases List.mem_append.1 ht with ht | ht
    · rw [(hok.tripZero t ht).2.1]
      exact List.length_pos_iff.2 hv
    · obtain ⟨⟨⟨v, locs⟩, j⟩, hz, hm⟩ := List.mem_flatMap.1 ht
      obtain ⟨i, hi, rfl⟩ := List.mem_map.1 hm
      have := List.snd_lt_of_mem_zipIdx hz
      simpa using this

/-- The product of the powers in a row. -/
theorem row_prod (A : List (Nat × Nat × ℝ)) (x : Nat → ℝ) (hx : ∀ j, 0 < x j) (i : Nat) :
    ((A.filter (fun e => e.1 = i)).map (fun e => x e.2.1 ^ e.2.2)).prod = Real.exp (rowDot A (fun j => Real.log (x j)) i) := by
  unfold rowDot
  induction A.filter (fun e => e.1 = i) with
  | nil => simp
  | cons e l ih =>
    rw [List.map_cons, List.map_cons, List.prod_cons, List.sum_cons, Real.exp_add, ih, Real.rpow_def_of_pos (hx _), mul_comm (Real.log _)]

theorem start_succ {hs : List (Hmap V ℝ)} {n : Nat} (h : n < hs.length) : start hs (n + 1) = start hs n + (hs[n]).terms.length := by
  unfold start
  rw [List.take_add_one, List.getElem?_eq_getElem h, List.map_append, List.sum_append]
  rfl

/-- C57, the program: the file written for a geometric program describes that program. It has a constraint for every posynomial but the cost, a
variable for every variable, and its posynomials have the values of the cost and the constraints. -/
theorem C57_program (ws : Char → Bool) (fi : Nat → Str) (fe : ℝ → Str) (pi : Str → Option Nat) (pe : Str → Option ℝ) (hsp : ws ' ' = true)
    (hn : ws '\n' = true) (fl : ℝ → Prop) (hN : Numerals ws fi fe pi pe fl) (hs : List (Hmap V ℝ)) (hne : hs ≠ []) (hterms : ∀ h ∈ hs, h.terms ≠ [])
    (hw : ∀ h ∈ hs, ∀ t ∈ h.terms, (t.1.items.map (·.1)).Nodup) (hv : (genLoop hs).varlocs ≠ [])
    (hcf : ∀ x ∈ (genLoop hs).cs, fl x) (hAf : ∀ t ∈ (genLoop hs).A, fl t.2.2) :
    ∃ s P, writeFile fi fe (genLoop hs).cs (genLoop hs).A (genLoop hs).pIdxs = some s ∧ readProgram ws pi pe s = some P ∧
      P.numcon + 1 = hs.length ∧ P.numvar = (genLoop hs).varlocs.length ∧
      ∀ (pt : V → ℝ) (x : Nat → ℝ), (∀ v, 0 < pt v) → (∀ j, 0 < x j) →
        (∀ j v, ((genLoop hs).varlocs.map (·.1))[j]? = some v → x j = pt v) →
        ∀ k h, hs[k]? = some h → P.posyVal x k = termsVal pt h.terms := by
  obtain ⟨h1, h2⟩ := gen_extent hs hw hv
  have hpl : (genLoop hs).pIdxs.length = (genLoop hs).cs.length := by rw [gen_pIdxs_length, gen_cs, List.length_map]
  have hlast : (genLoop hs).pIdxs.getLast? = some (hs.length - 1) := by
    have hpos : hs.length - 1 < hs.length := by have := List.length_pos_iff.2 hne; omega
    rw [List.getLast?_eq_getElem?, gen_pIdxs]
    refine ⟨hs[hs.length - 1], List.getElem?_eq_getElem hpos, ?_⟩
    have hs' : start hs hs.length = start hs (hs.length - 1) + (hs[hs.length - 1]).terms.length := by
      conv_lhs => rw [show hs.length = (hs.length - 1) + 1 by omega]
      exact start_succ hpos
    have ht := List.length_pos_iff.2 (hterms _ (List.getElem_mem hpos))
    rw [gen_pIdxs_length, ← start_length, hs']
    omega
  obtain ⟨s, hws, hrs⟩ := C57_write ws fi fe pi pe hsp hn fl hN _ _ _ _ _ hcf hAf hlast hpl h1 h2
  refine ⟨s, _, hws, hrs, ?_, rfl, ?_⟩
  · have := List.length_pos_iff.2 hne
    show hs.length - 1 + 1 = _
    omega
  · intro pt x hpt hx hxv k h hk
    obtain ⟨a, b, -, -, -, -, -, hp, hval⟩ := C20_blocks hs hw pt hpt (fun j => Real.log (x j)) (fun j v hj => by rw [hxv j v hj]) k h hk
    rw [hval]
    unfold Program.posyVal
    have hfil : (List.range (genLoop hs).cs.length).filter (fun t => (genLoop hs).pIdxs[t]? = some k) = List.range' a (b - a) := by
      apply List.Perm.eq_of_pairwise (le := (· < ·))
      · intro p q _ _ h1 h2
        omega
      · exact (List.pairwise_lt_range).filter _
      · exact List.pairwise_lt_range'
      · rw [List.perm_ext_iff_of_nodup (List.nodup_range.filter _) List.nodup_range']
        intro t
        rw [List.mem_filter, List.mem_range, List.mem_range'_1]
        simp only [decide_eq_true_eq]
        rw [hp t]
        constructor
        · rintro ⟨-, h1, h2⟩
          omega
        · rintro ⟨h1, h2⟩
          have h3 : a ≤ t ∧ t < b := by omega
          refine ⟨?_, h3⟩
          rw [← hpl]
          exact (List.getElem?_eq_some_iff.1 ((hp t).2 h3)).1
    show (((List.range (genLoop hs).cs.length).filter (fun t => (genLoop hs).pIdxs[t]? = some k)).map _).sum = _
    rw [hfil]
    congr 1
    apply List.map_congr_left
    intro t _
    show _ * (((genLoop hs).A.filter (fun e => e.1 = t)).map (fun e => x e.2.1 ^ e.2.2)).prod = _
    rw [row_prod _ _ hx]

/-- The lines of a solution file. -/
def solutionLines (status obj : Str) (pl dl : List Str) : List Str :=
  ["PROBLEM STATUS      : PRIMAL_AND_DUAL_FEASIBLE".toList, "SOLUTION STATUS     : ".toList ++ status, obj, [], "PRIMAL VARIABLES".toList,
    "INDEX   ACTIVITY".toList] ++ pl ++ [[], "DUAL VARIABLES".toList, "INDEX   ACTIVITY".toList] ++ dl

/-- C57, reading: a solution file of the expected form gives exactly its status, objective, primal and dual values, in order. -/
theorem C57_read (ws : Char → Bool) (pe : Str → Option K) (hn : ws '\n' = true) (status obj : Str) (o : K) (pl dl : List Str) (xs ys : List K)
    (hst : '\n' ∉ status) (hst2 : ¬ "SOLUTION STATUS     : ".toList <:+: status) (hobj : '\n' ∉ obj) (hobj2 : wordVal ws pe 2 obj = .ok o)
    (hp : ValLines ws pe pl xs) (hd : ValLines ws pe dl ys) :
    readSol ws pe (ended (solutionLines status obj pl dl)) = .ok ⟨status, o, xs, ys⟩ := by
  have hnl : ∀ l ∈ solutionLines status obj pl dl, '\n' ∉ l := by
    intro l hl
    simp only [solutionLines, List.mem_append, List.mem_cons, List.not_mem_nil, or_false] at hl
    rcases hl with (((rfl | rfl | rfl | rfl | rfl | rfl) | hl) | (rfl | rfl | rfl)) | hl
    · decide +kernel
    · rw [List.mem_append, not_or]
      exact ⟨by decide +kernel, hst⟩
    · exact hobj
    · decide
    · decide +kernel
    · decide +kernel
    · exact valLines_newline hp l hl
    · decide
    · decide +kernel
    · decide +kernel
    · exact valLines_newline hd l hl
  have hf : rawLines (ended (solutionLines status obj pl dl)) =
      ("PROBLEM STATUS      : PRIMAL_AND_DUAL_FEASIBLE".toList ++ ['\n']) :: ("SOLUTION STATUS     : ".toList ++ status ++ ['\n']) :: (obj ++ ['\n']) ::
      ([] ++ ['\n']) :: ("PRIMAL VARIABLES".toList ++ ['\n']) :: ("INDEX   ACTIVITY".toList ++ ['\n']) ::
      (pl.map (fun l => l ++ ['\n']) ++ (['\n'] :: ("DUAL VARIABLES".toList ++ ['\n']) :: ("INDEX   ACTIVITY".toList ++ ['\n']) ::
        dl.map (fun l => l ++ ['\n']))) := by
    rw [rawLines_ended hnl]
    simp only [solutionLines, List.map_append, List.map_cons, List.cons_append, List.nil_append, List.append_assoc]
  have hpv := readVals_lines hn hp (rest := ['\n'] :: ("DUAL VARIABLES".toList ++ ['\n']) :: ("INDEX   ACTIVITY".toList ++ ['\n']) ::
        dl.map (fun l => l ++ ['\n'])) (.inr ⟨_, rfl⟩)
  have hdv := readVals_lines hn hd (rest := []) (.inl rfl)
  rw [List.append_nil] at hdv
  have hst3 : ¬ "SOLUTION STATUS     : ".toList <:+: status ++ ['\n'] := infix_newline hst2 (by decide +kernel) (by decide +kernel)
  have ha1 : after "PROBLEM STATUS      : ".toList "PROBLEM STATUS      : PRIMAL_AND_DUAL_FEASIBLE".toList = .ok "PRIMAL_AND_DUAL_FEASIBLE".toList := by
    decide +kernel
  have ha2 : after "SOLUTION STATUS     : ".toList ("SOLUTION STATUS     : ".toList ++ status ++ ['\n']) = .ok (status ++ ['\n']) := by
    rw [List.append_assoc]
    exact after_prefix (by decide +kernel) hst3
  unfold readSol
  simp only [hf, line, List.headD_cons, List.drop_succ_cons, List.drop_zero, List.dropLast_concat, ha1, ha2]
  simp only [bind, Except.bind, wordVal_line hn hobj2, assert_ok hn, hpv, hdv, List.tail_cons, List.headD_cons, List.drop_succ_cons, List.drop_zero,
    List.dropLast_concat, pure, Except.pure]
  rw [if_neg (by decide +kernel), if_neg (by decide +kernel), if_neg (by simp), show assertEqual ws ([] ++ ['\n']) "".toList = .ok () from assert_ok hn []]

/-- C57, statuses: the first line decides which exception is raised, whatever else the file contains. -/
theorem C57_status (ws : Char → Bool) (pe : Str → Option K) (st rest : Str) (h1 : '\n' ∉ st) (h2 : ¬ "PROBLEM STATUS      : ".toList <:+: st) :
    let text := "PROBLEM STATUS      : ".toList ++ st ++ '\n' :: rest
    (st = "PRIMAL_INFEASIBLE".toList → readSol ws pe text = .error .primalInfeasible) ∧
    (st = "DUAL_INFEASIBLE".toList → readSol ws pe text = .error .dualInfeasible) ∧
    (st ∉ ["PRIMAL_INFEASIBLE".toList, "DUAL_INFEASIBLE".toList, "PRIMAL_AND_DUAL_FEASIBLE".toList] → readSol ws pe text = .error .unknownInfeasible) := by
  intro text
  have hf : rawLines text = ("PROBLEM STATUS      : ".toList ++ st ++ ['\n']) :: rawLines rest := rawLines_cons (by
    rw [List.mem_append, not_or]
    exact ⟨by decide +kernel, h1⟩)
  have ha : after "PROBLEM STATUS      : ".toList ("PROBLEM STATUS      : ".toList ++ st) = .ok st := after_prefix (by decide +kernel) h2
  refine ⟨?_, ?_, ?_⟩
  · intro hst
    unfold readSol
    simp only [hf, line, List.headD_cons, List.dropLast_concat, ha, bind, Except.bind]
    rw [if_pos hst]
  · intro hst
    unfold readSol
    simp only [hf, line, List.headD_cons, List.dropLast_concat, ha, bind, Except.bind]
    rw [if_neg (by rw [hst]; decide +kernel), if_pos hst]
  · intro hst
    simp only [List.mem_cons, List.not_mem_nil, or_false, not_or] at hst
    unfold readSol
    simp only [hf, line, List.headD_cons, List.dropLast_concat, ha, bind, Except.bind]
    rw [if_neg hst.1, if_neg hst.2.1, if_pos hst.2.2]

/-- C57, trust: a result is returned only if the solver exited normally and its file says that the problem is primal and dual feasible; it is then
what the file says. -/
theorem C57_sound (ws : Char → Bool) (pe : Str → Option K) (tmpdir : Bool) (code : Option Nat) (text : Str) (r : Result K)
    (h : (optimize ws pe tmpdir code text).1 = .ok r) :
    code = none ∧ readSol ws pe text = .ok r ∧
      ∃ pre, ((rawLines text).headD []).dropLast = pre ++ "PROBLEM STATUS      : ".toList ++ "PRIMAL_AND_DUAL_FEASIBLE".toList := by
  cases code with
  | some n => cases h
  | none =>
    have hr : readSol ws pe text = .ok r := by
      unfold optimize at h
      cases hh : readSol ws pe text with
      | error e => simp only [hh] at h; cases h
      | ok r' => simp only [hh] at h; cases h; rfl
    refine ⟨rfl, hr, ?_⟩
    unfold readSol at hr
    simp only [bind, Except.bind] at hr
    cases ha : after "PROBLEM STATUS      : ".toList (line (rawLines text)).dropLast with
    | error e => simp only [ha] at hr; cases hr
    | ok st =>
      simp only [ha] at hr
      obtain ⟨pre, hpre⟩ := after_ok ha
      split at hr
      · cases hr
      · split at hr
        · cases hr
        · split at hr
          · cases hr
          · rename_i hst
            push Not at hst
            rw [hst] at hpre
            exact ⟨pre, hpre⟩

/-- C57, licences: the return codes of a missing or expired licence, and only they, raise `InvalidLicense`. -/
theorem C57_license (ws : Char → Bool) (pe : Str → Option K) (tmpdir : Bool) (n : Nat) (text : Str) :
    (n = 233 ∨ n = 240 → (optimize ws pe tmpdir (some n) text).1 = .error .invalidLicense) ∧
    (¬ (n = 233 ∨ n = 240) → (optimize ws pe tmpdir (some n) text).1 = .error .unknownInfeasible) := by
  constructor
  · intro h
    show Except.error (if n ∈ [233, 240] then CliErr.invalidLicense else CliErr.unknownInfeasible) = _
    rw [if_pos (by simpa using h)]
  · intro h
    show Except.error (if n ∈ [233, 240] then CliErr.invalidLicense else CliErr.unknownInfeasible) = _
    rw [if_neg (by simpa using h)]

/-- C57 fails for the temporary directory: it is removed after a success only. Every failed solve leaves it behind. -/
theorem C57_cleanup_fails (ws : Char → Bool) (pe : Str → Option K) (code : Option Nat) (text : Str) :
    ((∃ r, (optimize ws pe true code text).1 = .ok r) → (optimize ws pe true code text).2 = true) ∧
    ((∃ e, (optimize ws pe true code text).1 = .error e) → (optimize ws pe true code text).2 = false) := by
  cases code with
  | some n => exact ⟨fun ⟨r, h⟩ => (by cases h), fun _ => rfl⟩
  | none =>
    unfold optimize
    cases readSol ws pe text with
    | error e => exact ⟨fun ⟨r, h⟩ => (by cases h), fun _ => rfl⟩
    | ok r => exact ⟨fun _ => rfl, fun ⟨e, h⟩ => by cases h⟩

/-- C57 fails for files cut short: a solution file that ends anywhere between the lines of its dual values is accepted, with fewer dual values. -/
theorem C57_truncated_fails (ws : Char → Bool) (pe : Str → Option K) (hn : ws '\n' = true) (status obj : Str) (o : K) (pl dl dl' : List Str)
    (xs ys ys' : List K) (hst : '\n' ∉ status) (hst2 : ¬ "SOLUTION STATUS     : ".toList <:+: status) (hobj : '\n' ∉ obj)
    (hobj2 : wordVal ws pe 2 obj = .ok o) (hp : ValLines ws pe pl xs) (hd : ValLines ws pe dl ys) (hd' : ValLines ws pe dl' ys') (hne : dl' ≠ []) :
    ended (solutionLines status obj pl dl) <+: ended (solutionLines status obj pl (dl ++ dl')) ∧
    readSol ws pe (ended (solutionLines status obj pl (dl ++ dl'))) = .ok ⟨status, o, xs, ys ++ ys'⟩ ∧
    readSol ws pe (ended (solutionLines status obj pl dl)) = .ok ⟨status, o, xs, ys⟩ ∧ ys.length < (ys ++ ys').length := by
  refine ⟨⟨ended dl', ?_⟩, ?_, ?_, ?_⟩
  · simp [ended, solutionLines]
  · exact C57_read ws pe hn status obj o pl _ xs _ hst hst2 hobj hobj2 hp (valLines_append hd hd')
  · exact C57_read ws pe hn status obj o pl dl xs ys hst hst2 hobj hobj2 hp hd
  · cases hd' with
    | nil => exact absurd rfl hne
    | cons _ _ => simp

/-! A way of writing numbers, for the example: integers in unary, and three floats. -/

/-- Blanks. -/
def exWs (c : Char) : Bool := c = ' ' ∨ c = '\n'

/-- Floats. -/
noncomputable def exFe (x : ℝ) : Str := if x = 2 then "2.0".toList else if x = -1 then "-1.0".toList else "1.0".toList

/-- Reading floats. -/
noncomputable def exPe (s : Str) : Option ℝ := if s = "2.0".toList then some 2 else if s = "-1.0".toList then some (-1) else if s = "1.0".toList then some 1 else none

/-- The numerals of the example. -/
theorem ex_numerals : Numerals exWs (fun n => List.replicate (n + 1) '1') exFe (fun s => some (s.length - 1)) exPe (fun x => x = 2 ∨ x = -1 ∨ x = 1) where
  int n := by simp
  flt := by
    rintro x (rfl | rfl | rfl)
    · rw [exFe, if_pos rfl, exPe, if_pos rfl]
    · rw [exFe, if_neg (by norm_num), if_pos rfl, exPe, if_neg (by decide +kernel), if_pos rfl]
    · rw [exFe, if_neg (by norm_num), if_neg (by norm_num), exPe, if_neg (by decide +kernel), if_neg (by decide +kernel), if_pos rfl]
  intWord n := by
    refine ⟨by simp, ?_, by simp [List.replicate_succ]⟩
    intro c hc
    rw [List.eq_of_mem_replicate hc]
    decide
  fltWord x := by
    unfold exFe
    split
    · exact ⟨by decide +kernel, by decide +kernel, by decide +kernel⟩
    · split
      · exact ⟨by decide +kernel, by decide +kernel, by decide +kernel⟩
      · exact ⟨by decide +kernel, by decide +kernel, by decide +kernel⟩

/-- Minimising `x` subject to `2/x ≤ 1`: the data meet the conditions of C57. -/
example : let hs : List (Hmap ℕ ℝ) := [⟨[(⟨[(0, 1)]⟩, 1)], false⟩, ⟨[(⟨[(0, -1)]⟩, 2)], false⟩]
    (∀ h ∈ hs, h.terms ≠ []) ∧ (∀ h ∈ hs, ∀ t ∈ h.terms, (t.1.items.map (·.1)).Nodup) ∧
    (genLoop hs).varlocs ≠ [] ∧ (∀ x ∈ (genLoop hs).cs, x = 2 ∨ x = -1 ∨ x = 1) ∧ (∀ t ∈ (genLoop hs).A, t.2.2 = 2 ∨ t.2.2 = -1 ∨ t.2.2 = 1) := by
  refine ⟨?_, ?_, ?_, ?_, ?_⟩
  · simp
  · simp
  · simp [genLoop, genStep, expStep, locAppend, PyDict.set, PyDict.get?]
  · simp [genLoop, genStep, expStep, locAppend]
  · simp [genLoop, genStep, expStep, locAppend, PyDict.set, PyDict.get?, Data.A, Data.colEntries, Data.expOf, HV.get?]

/-- A solution file that meets the conditions of C57. -/
example : wordVal exWs exPe 2 "OBJECTIVE           : 2.0".toList = .ok 2 ∧ ValLines exWs exPe ["1       2.0".toList] [2] ∧
    ¬ "SOLUTION STATUS     : ".toList <:+: "OPTIMAL".toList := by
  refine ⟨?_, .cons ⟨by decide +kernel, "1".toList, "2.0".toList, [], by decide +kernel, ?_⟩ .nil, by decide +kernel⟩
  · unfold wordVal
    rw [show Str.words exWs "OBJECTIVE           : 2.0".toList = ["OBJECTIVE".toList, ":".toList, "2.0".toList] from by decide +kernel]
    simp [exPe]
  · simp [exPe]

end Verif
