import Verif.Model.SigWritten
import Verif.Lemmas.Size
import Verif.Lemmas.Lacks
import Verif.Props.Written
import Verif.Props.Sequential

/-! Models with signomials are solved as they are written: C75. -/

set_option linter.unusedSectionVars false

namespace Verif
open PyDict GP Pipeline Compare Written SeqGP

/-! ### Shares -/

theorem share_nonneg {s : ℝ} (hs : 1 ≤ s) : 0 ≤ share s := div_nonneg (by linarith) (by linarith)

theorem share_one : share 1 = 0 := by simp [share]

/-- One number is at most `s` times another exactly if it exceeds it by no more than the share of their sum. -/
theorem le_mul_iff_share {s : ℝ} (hs : 1 ≤ s) (p n : ℝ) : p ≤ s * n ↔ p - n ≤ share s * (p + n) := by
  have h : (0 : ℝ) < s + 1 := by linarith
  rw [share, div_mul_eq_mul_div, le_div_iff₀ h]
  constructor <;> intro h1 <;> nlinarith

section Signomials
variable {V D : Type} [DecidableEq V] [AddCommGroup D] [DecidableEq D]

theorem absVal_parts (pt : V → ℝ) (l : PyDict (HV V ℝ) ℝ) :
    absVal pt l = termsVal pt (l.filter (fun t => 0 < t.2)) - termsVal pt (l.filter (fun t => t.2 < 0)) := by
  induction l with
  | nil => simp [absVal_nil]
  | cons t l ih =>
    rw [absVal_cons, ih, List.filter_cons, List.filter_cons]
    rcases lt_trichotomy t.2 0 with hlt | h0 | hgt
    · rw [if_neg (by simpa using hlt.le), if_pos (by simpa using hlt), termsVal_cons, abs_of_neg hlt]; ring
    · rw [if_neg (by simp [h0]), if_neg (by simp [h0]), h0, abs_zero]; ring
    · rw [if_pos (by simpa using hgt), if_neg (by simpa using hgt.le), termsVal_cons, abs_of_pos hgt]; ring

theorem sigHolds_iff {s : ℝ} (hs : 1 ≤ s) (pt : V → ℝ) (n : Nomial V ℝ D) :
    SigHolds s pt n ↔ termsVal pt n.hmap.terms ≤ share s * absVal pt n.hmap.terms := by
  unfold SigHolds
  rw [le_mul_iff_share hs, absVal_parts, termsVal_parts (l := n.hmap.terms) pt, sub_neg_eq_add, ← sub_eq_add_neg]

theorem sigHolds_one (pt : V → ℝ) (n : Nomial V ℝ D) : SigHolds 1 pt n ↔ termsVal pt n.hmap.terms ≤ 0 := by
  rw [sigHolds_iff le_rfl, share_one, zero_mul]

/-! ### Signomial inequalities that simplify -/

theorem sub_empty {h h' : NMap V ℝ D} {fixed : PyDict V ℝ} {rounds : List (V × List (HV V ℝ))} (he : h.terms = [])
    (ho : SetOrder (varlocs h.terms fixed) rounds) (hs : h.sub fixed rounds = .ok h') : h'.units = h.units ∧ h'.terms = [] := by
  unfold NMap.sub at hs
  obtain ⟨s, h1, h2⟩ := except_bind_ok hs
  cases h2
  refine ⟨rfl, ?_⟩
  unfold subState at h1
  split at h1
  · cases h1; exact he
  · rw [he] at ho h1
    have : rounds = [] := by
      cases ho
      rfl
    subst this
    cases h1
    rfl

/-- What substitution leaves of a signomial. -/
theorem sub_sig {h h' : NMap V ℝ D} {fixed : PyDict V ℝ} {ord : Orders V ℝ} (ho : ord.Valid) (hc : TermsTidy h.terms)
    (hs : h.sub fixed (ord h.terms fixed) = .ok h') :
    h'.units = h.units ∧ TermsTidy h'.terms ∧
    (∀ t ∈ h'.terms, ∀ v x, t.1.get? v = some x → ∃ s ∈ h.terms, s.1.get? v = some x) ∧
    ∀ pt : V → ℝ, (∀ v c, fixed.get? v = some c → pt v = c) → termsVal pt h'.terms = termsVal pt h.terms := by
  by_cases he : h.terms = []
  · obtain ⟨a, b⟩ := sub_empty he (ho _ _) hs
    rw [b, he]
    exact ⟨a, by simp [TermsTidy, WF], by simp, fun _ _ => rfl⟩
  · obtain ⟨a, b, c, -, d, -⟩ := sub_tidy hc he (ho _ _) hs
    exact ⟨a, d, fun t ht v x hx => (c t ht v x hx).2, b⟩

theorem posyNegy_none {a : Nomial V ℝ D} (hwf : WF a.hmap.terms) {o : Option (Nomial V ℝ D)} (h : a.posyNegy false = .ok (none, o)) (pt : V → ℝ)
    (hpt : ∀ v, 0 < pt v) : termsVal pt a.hmap.terms ≤ 0 := by
  obtain ⟨p, n, h1, h2, h3, -⟩ := C08_posy_negy false a hwf
  rw [h] at h1
  cases h1
  rw [← h3 pt]
  have : 0 ≤ termsVal pt (optTerms o) := by
    cases o with
    | none => simp [optTerms]
    | some q => exact (termsVal_pos hpt (h2 q (.inr rfl)).2.2.2 (h2 q (.inr rfl)).1).le
  have h0 : termsVal pt (optTerms (none : Option (Nomial V ℝ D))) = 0 := by simp [optTerms]
  rw [h0]
  linarith

/-- What a signomial inequality becomes after substitution says the same, once the constants are known. -/
theorem become_sig {n : Nomial V ℝ D} (hc : TermsTidy n.hmap.terms) (hu : UnitOK n.hmap.units) {fixed : PyDict V ℝ} {ord : Orders V ℝ} (ho : ord.Valid)
    {l : List (Con V D)} (h : (Single.sig n).become fixed ord = .ok l) :
    (∀ pt : V → ℝ, (∀ v, 0 < pt v) → Agrees pt fixed →
      (∀ s, 1 ≤ s → (∀ c ∈ l, c.Holds s pt) → SigHolds s pt n) ∧ (SigHolds 1 pt n → ∀ c ∈ l, c.Holds 1 pt)) ∧
    (∀ c ∈ l, Unharmed c → ConOK c) ∧ ∀ v, Absent v n.hmap.terms → ∀ c ∈ l, ConAbsent v c := by
  unfold Single.become at h
  obtain ⟨h', hs, h1⟩ := except_bind_ok h
  obtain ⟨m, hm, h2⟩ := except_bind_ok h1
  obtain ⟨⟨op, on⟩, hpn, h3⟩ := except_bind_ok h2
  obtain ⟨hu', ht', hsrc, hval⟩ := sub_sig ho hc hs
  have hmm := mkSig_ok hm
  rw [← hmm] at hu' ht' hsrc hval
  have habs : ∀ pt : V → ℝ, (∀ v, 0 < pt v) → Agrees pt fixed → absVal pt m.hmap.terms ≤ absVal pt n.hmap.terms := by
    intro pt hpt hag
    rw [hmm]
    exact absVal_sub hpt hag hc.1 hs
  match op, on with
  | none, o =>
    cases h3
    refine ⟨fun pt hpt hag => ⟨fun s hs' _ => ?_, fun _ c hc => by simp at hc⟩, by simp, by simp⟩
    have := posyNegy_none ht'.1 hpn pt hpt
    rw [hval pt hag] at this
    rw [sigHolds_iff hs']
    exact this.trans (mul_nonneg (share_nonneg hs') (absVal_nonneg hpt _))
  | some p, none => cases h3
  | some p, some q =>
    simp only at h3
    split at h3
    · cases h3
    · rename_i hlen
      cases h3
      obtain ⟨p1, p2, q1, q2⟩ := posyNegy_some ht'.1 hpn
      have hup : 0 < unitScale n.hmap.units := hu
      have hmv : ∀ (s : ℝ) (pt : V → ℝ), (Con.le false p.hmap q.hmap : Con V D).Holds s pt ↔ SigHolds s pt m := by
        intro s pt
        have hneg : termsVal pt ((m.hmap.terms.filter (fun t => t.2 < 0)).map (fun t => (t.1, -t.2))) =
            -termsVal pt (m.hmap.terms.filter (fun t => t.2 < 0)) := by
          generalize m.hmap.terms.filter (fun t => t.2 < 0) = l
          induction l with
          | nil => simp
          | cons t l ih => rw [List.map_cons, termsVal_cons, termsVal_cons, ih]; ring
        unfold SigHolds Con.Holds
        simp only [physVal]
        rw [p1, q1]
        simp only
        rw [hu', hneg, mul_left_comm, mul_le_mul_iff_right₀ hup]
      refine ⟨fun pt hpt hag => ⟨fun s hs' hall => ?_, fun hh c hc' => ?_⟩, ?_, ?_⟩
      · have := (hmv s pt).1 (hall _ (by simp))
        rw [sigHolds_iff hs', hval pt hag] at this
        rw [sigHolds_iff hs']
        exact this.trans (mul_le_mul_of_nonneg_left (habs pt hpt hag) (share_nonneg hs'))
      · rw [List.mem_singleton] at hc'
        subst hc'
        rw [hmv, sigHolds_one, hval pt hag, ← sigHolds_one]
        exact hh
      · intro c hc' hun
        rw [List.mem_singleton] at hc'
        subst hc'
        obtain ⟨e, k, hq⟩ : ∃ e k, q.hmap.terms = [(e, k)] := by
          rcases hx : q.hmap.terms with _ | ⟨t, _ | ⟨t', l⟩⟩
          · exact (q2 hx).elim
          · exact ⟨t.1, t.2, rfl⟩
          · rw [hx] at hlen
            simp at hlen
        have hek : ∃ t ∈ m.hmap.terms, t.2 < 0 ∧ (e, k) = (t.1, -t.2) := by
          have : (e, k) ∈ q.hmap.terms := by rw [hq]; simp
          rw [q1] at this
          obtain ⟨t, ht, h5⟩ := List.mem_map.1 this
          exact ⟨t, (List.mem_filter.1 ht).1, by simpa using (List.mem_filter.1 ht).2, h5.symm⟩
        obtain ⟨t, ht, htn, h5⟩ := hek
        injection h5 with h5 h6
        refine ⟨.inl rfl, ?_, ?_, e, k, hq, ?_, ?_, ?_, ?_, hun e k hq⟩
        · rw [p1, termsCanonical_iff]
          refine ⟨ht'.1.sublist List.filter_sublist, fun t ht => ?_, fun t ht => ht'.2 t (List.mem_filter.1 ht).1⟩
          have : 0 < t.2 := by simpa using (List.mem_filter.1 ht).2
          exact this.ne'
        · rw [p1]
          intro t ht
          simpa using (List.mem_filter.1 ht).2
        · rw [h5]; exact ht'.2 t ht
        · rw [h6]; linarith
        · rw [p1]; rw [hu']; exact hu
        · rw [q1]; rw [hu']; exact hu
      · intro v hv c hc'
        rw [List.mem_singleton] at hc'
        subst hc'
        have hv' : Absent v m.hmap.terms := by
          intro t ht hmem
          have hg : t.1.get? v ≠ none := by
            intro hn
            unfold HV.get? at hn
            rw [get?_eq_none_iff] at hn
            obtain ⟨p, hp, hpv⟩ := List.mem_map.1 hmem
            have := hn p hp
            rw [hpv] at this
            simp at this
          obtain ⟨x, hx⟩ := Option.ne_none_iff_exists'.1 hg
          obtain ⟨s, hs, hsx⟩ := hsrc t ht v x hx
          obtain ⟨k, hk, hkv⟩ := exists_mem_of_get? hsx
          exact hv s hs (List.mem_map.2 ⟨_, hk, eq_of_beq hkv⟩)
        refine ⟨?_, ?_⟩
        · rw [p1]
          exact fun t ht => hv' t (List.mem_filter.1 ht).1
        · rw [q1]
          intro t ht
          obtain ⟨u, hu, rfl⟩ := List.mem_map.1 ht
          exact hv' u (List.mem_filter.1 hu).1

/-! ### Comparisons -/

theorem side_size {se : Bool} {a : PyVal V ℝ D} {n : Nomial V ℝ D} (h : side se a = .ok n) (pt : V → ℝ) : physSize pt n.hmap = a.size pt := by
  cases a with
  | num q =>
    rw [mkSig_ok h]
    simp [numMap, physSize, PyVal.size, absVal_cons, absVal_nil, HV.empty, monVal]
  | nom m => cases h; rfl

theorem side_tidy {se : Bool} {a : PyVal V ℝ D} (ha : a.Tidy) {n : Nomial V ℝ D} (h : side se a = .ok n) : TermsTidy n.hmap.terms := by
  cases a with
  | num q => rw [mkSig_ok h]; exact numMap_tidy q
  | nom m => cases h; exact ha

theorem side_lacks {se : Bool} {v : V} {a : PyVal V ℝ D} (ha : a.Lacks v) {n : Nomial V ℝ D} (h : side se a = .ok n) : Absent v n.hmap.terms := by
  cases a with
  | num q => rw [mkSig_ok h]; exact numMap_lacks v q
  | nom m => cases h; exact ha

/-- What `<=` or `>=` returns, by its lesser and greater side. -/
theorem compared_inv {se : Bool} {feastol : ℝ} {approx : PyVal V ℝ D → Except Err Unit} {op : Op} {isvar : Bool × Bool} {a b : PyVal V ℝ D}
    {m : Made V ℝ D} (h : compared se feastol approx op isvar a b = .ok m) :
    (∃ nx ny, side se (op.order a b).1 = .ok nx ∧ side se (op.order a b).2 = .ok ny ∧
      ((∃ l o r, m = .ineq l o r ∧ (o.order l r).1 = nx.hmap ∧ (o.order l r).2 = ny.hmap) ∨
        ∃ l o r u, m = .sig l o r u ∧ PyVal.sub se (.nom nx) (.nom ny) = .ok u)) ∨ ∃ t, m = .truth t := by
  by_cases hn : ∀ p q, a = .num p → b = .num q → False
  · left
    have hk := C73_kind se feastol approx op isvar a b hn
    rw [h] at hk
    generalize (op.order a b).1 = x at hk ⊢
    generalize (op.order a b).2 = y at hk ⊢
    unfold Dispatched at hk
    split at hk
    · rcases hk with hk | hk
      · obtain ⟨nl, nr, u, h1, h2, -, rfl⟩ := posyIneq_ok hk.symm
        exact ⟨nl, nr, h1, h2, .inl ⟨_, _, _, rfl, rfl, rfl⟩⟩
      · obtain ⟨nl, nr, u, h1, h2, -, rfl⟩ := posyIneq_ok hk.symm
        exact ⟨nr, nl, h2, h1, .inl ⟨_, _, _, rfl, rfl, rfl⟩⟩
    · rcases hk with hk | hk
      · obtain ⟨-, nl, nr, u, h1, h2, h3, rfl⟩ := sigIneq_ok hk.symm
        exact ⟨nl, nr, h1, h2, .inr ⟨_, _, _, _, rfl, h3⟩⟩
      · obtain ⟨-, nl, nr, u, h1, h2, h3, rfl⟩ := sigIneq_ok hk.symm
        exact ⟨nr, nl, h2, h1, .inr ⟨_, _, _, _, rfl, h3⟩⟩
  · right
    push Not at hn
    obtain ⟨p, q, rfl, rfl, -⟩ := hn
    simp only [compared] at h
    split at h
    · cases h; exact ⟨_, rfl⟩
    · cases h

/-- A single constraint holds at a point, with a factor `s` to spare. -/
def _root_.Verif.Written.Single.Holds (s : ℝ) (pt : V → ℝ) : Single V D → Prop
  | .con c => c.Holds s pt
  | .sig n => SigHolds s pt n
  | .eqn n => EqualWithin s pt n.hmap.terms

/-- The same, where for equalities there is besides the factor by which terms of one side have moved apart since `y`. -/
def _root_.Verif.Written.Single.HoldsFrom (y : V → ℝ) (s : ℝ) (pt : V → ℝ) : Single V D → Prop
  | .con c => c.Holds s pt
  | .sig n => SigHolds s pt n
  | .eqn n => ∀ B, 0 ≤ B → MovesWithin B y pt n.hmap.terms → EqualWithin (s * B) pt n.hmap.terms

/-- A variable does not occur in a single constraint. -/
def _root_.Verif.Written.Single.Lacks (v : V) : Single V D → Prop
  | .con c => ConAbsent v c
  | .sig n => Absent v n.hmap.terms
  | .eqn n => Absent v n.hmap.terms

theorem within_zero (rel : Rel) (l r : ℝ) : rel.Within 0 l r ↔ rel.Holds 1 l r := by
  cases rel
  · simp only [Rel.Within, Rel.Holds, one_mul]; constructor <;> intro h <;> linarith
  · simp only [Rel.Within, Rel.Holds, one_mul]; constructor <;> intro h <;> linarith
  · simp only [Rel.Within, Rel.Holds, one_mul, abs_le]
    constructor
    · rintro ⟨h1, h2⟩; constructor <;> linarith
    · rintro ⟨h1, h2⟩; constructor <;> linarith

/-- With a factor to spare implies with a share of the sizes to spare. -/
theorem within_of_holds {s : ℝ} (hs : 1 ≤ s) {rel : Rel} {l r sl sr : ℝ} (hl : |l| ≤ sl) (hr : |r| ≤ sr) (h : rel.Holds s l r) :
    rel.Within (share s * (sl + sr)) l r := by
  have h0 := share_nonneg hs
  have key : ∀ a b : ℝ, a ≤ s * b → a - b ≤ share s * (|a| + |b|) := by
    intro a b hab
    rcases le_or_gt 0 b with hb | hb
    · rcases le_or_gt 0 a with ha | ha
      · rw [abs_of_nonneg ha, abs_of_nonneg hb]
        exact (le_mul_iff_share hs a b).1 hab
      · have := mul_nonneg h0 (add_nonneg (abs_nonneg a) (abs_nonneg b))
        linarith
    · have := mul_nonneg h0 (add_nonneg (abs_nonneg a) (abs_nonneg b))
      nlinarith
  have hmono : share s * (|l| + |r|) ≤ share s * (sl + sr) := mul_le_mul_of_nonneg_left (by linarith) h0
  cases rel with
  | le => exact (key l r h).trans hmono
  | ge =>
    have := key r l h
    show r - l ≤ _
    linarith [add_comm |r| |l|, congrArg (share s * ·) (add_comm |r| |l|)]
  | eq =>
    have h1 := key l r h.1
    have h2 := key r l h.2
    rw [add_comm |r| |l|] at h2
    show |l - r| ≤ _
    rw [abs_le]
    constructor <;> linarith

variable [Module ℝ D]

/-- What the comparison of two values makes, as a single constraint. -/
theorem toSingle_con {se : Bool} {m : Made V ℝ D} {c : Con V D} (h : toSingle se m = .ok (.con c)) : toCon se m = .ok c := by
  cases m with
  | ineq l o r => cases h; rfl
  | equal l r => cases h; rfl
  | truth t => cases h
  | sig l o r u => cases u <;> cases h

/-- The signomial inequality that a comparison of two values makes. -/
theorem related_sig {se : Bool} {feastol : ℝ} {approx : PyVal V ℝ D → Except Err Unit} {rel : Rel} {isvar : Bool × Bool} {l r : PyVal V ℝ D} {m : Made V ℝ D}
    {n : Nomial V ℝ D} (gl : l.Good) (gr : r.Good) (cl : l.Tidy) (cr : r.Tidy) (hm : related se feastol approx rel isvar l r = .ok m)
    (hc : toSingle se m = .ok (.sig n)) :
    TermsTidy n.hmap.terms ∧ UnitOK n.hmap.units ∧
    ∀ pt : V → ℝ, (∀ v, 0 < pt v) → physSize pt n.hmap ≤ l.size pt + r.size pt ∧
      ((rel = .le ∧ physVal pt n.hmap = l.phys pt - r.phys pt) ∨ (rel = .ge ∧ physVal pt n.hmap = r.phys pt - l.phys pt)) := by
  have ineq : ∀ op, compared se feastol approx op isvar l r = .ok m → TermsTidy n.hmap.terms ∧ UnitOK n.hmap.units ∧
      ∀ pt : V → ℝ, (∀ v, 0 < pt v) → physSize pt n.hmap ≤ ((op.order l r).1).size pt + ((op.order l r).2).size pt ∧
        physVal pt n.hmap = ((op.order l r).1).phys pt - ((op.order l r).2).phys pt := by
    intro op hm
    have hx : ((op.order l r).1).Good ∧ ((op.order l r).1).Tidy := by cases op <;> [exact ⟨gl, cl⟩; exact ⟨gr, cr⟩]
    have hy : ((op.order l r).2).Good ∧ ((op.order l r).2).Tidy := by cases op <;> [exact ⟨gr, cr⟩; exact ⟨gl, cl⟩]
    rcases compared_inv hm with ⟨nx, ny, sx, sy, ⟨_, _, _, rfl, -⟩ | ⟨_, _, _, u, rfl, hu⟩⟩ | ⟨_, rfl⟩
    · cases hc
    · cases u with
      | num q => cases hc
      | nom n' =>
        cases hc
        obtain ⟨gx, vx⟩ := side_ok hx.1 sx
        obtain ⟨gy, vy⟩ := side_ok hy.1 sy
        obtain ⟨g, vu⟩ := pySub_ok gx gy hu
        refine ⟨pySub_tidy (a := .nom nx) (b := .nom ny) (side_tidy hx.2 sx) (side_tidy hy.2 sy) hu, g.1, fun pt hpt => ⟨?_, ?_⟩⟩
        · have := pySub_size hpt gx gy hu
          rw [← side_size sx pt, ← side_size sy pt]
          exact this
        · rw [← vx pt, ← vy pt]
          exact vu pt
    · cases hc
  cases rel with
  | le =>
    obtain ⟨a, b, c⟩ := ineq .le hm
    exact ⟨a, b, fun pt hpt => ⟨(c pt hpt).1, .inl ⟨rfl, (c pt hpt).2⟩⟩⟩
  | ge =>
    obtain ⟨a, b, c⟩ := ineq .ge hm
    refine ⟨a, b, fun pt hpt => ⟨?_, .inr ⟨rfl, (c pt hpt).2⟩⟩⟩
    rw [add_comm]
    exact (c pt hpt).1
  | eq =>
    rcases C73_equality gl gr hm with ⟨_, rfl⟩ | ⟨_, _, rfl, -⟩ <;> cases hc

/-- What is compared has no other variables than its sides. -/
theorem related_lacks {se : Bool} {feastol : ℝ} {approx : PyVal V ℝ D → Except Err Unit} {rel : Rel} {isvar : Bool × Bool} {l r : PyVal V ℝ D} {m : Made V ℝ D}
    {x : Single V D} {v : V} (hl : l.Lacks v) (hr : r.Lacks v) (hm : related se feastol approx rel isvar l r = .ok m) (hc : toSingle se m = .ok x) :
    x.Lacks v := by
  have ineq : ∀ op, compared se feastol approx op isvar l r = .ok m → x.Lacks v := by
    intro op hm
    have hx : ((op.order l r).1).Lacks v ∧ ((op.order l r).2).Lacks v := by cases op <;> [exact ⟨hl, hr⟩; exact ⟨hr, hl⟩]
    rcases compared_inv hm with ⟨nx, ny, sx, sy, ⟨_, _, _, rfl, e1, e2⟩ | ⟨_, _, _, u, rfl, hu⟩⟩ | ⟨_, rfl⟩
    · cases hc
      show Absent v _ ∧ Absent v _
      rw [e1, e2]
      exact ⟨side_lacks hx.1 sx, side_lacks hx.2 sy⟩
    · cases u with
      | num q => cases hc
      | nom n' =>
        cases hc
        exact pySub_lacks (a := .nom nx) (b := .nom ny) (side_lacks hx.1 sx) (side_lacks hx.2 sy) hu
    · cases hc
  cases rel with
  | le => exact ineq .le hm
  | ge => exact ineq .ge hm
  | eq =>
    rcases equals_ok hm with ⟨_, rfl⟩ | ⟨-, -, h1⟩
    · cases hc
    · have fin : ∀ a b : PyVal V ℝ D, a.Lacks v → b.Lacks v → monoEqual se feastol a b = .ok m → x.Lacks v := by
        intro a b ha hb h1
        rcases monoEqual_ok h1 with rfl | ⟨na, nb, u, sa, sb, -, rfl⟩
        · cases hc
        · cases hc
          exact ⟨side_lacks ha sa, side_lacks hb sb⟩
      rcases h1 with h1 | h1
      · exact fin l r hl hr h1
      · exact fin r l hr hl h1

/-! ### Statements -/

theorem single_inv {se : Bool} {feastol : ℝ} {approx : PyVal V ℝ D → Except Err Unit} {vunits : V → Option (UnitQ D ℝ)} {st : Stmt V} {x : Single V D}
    (h : st.single se feastol approx vunits = .ok x) :
    ∃ l r m, st.left.build se vunits = .ok l ∧ st.right.build se vunits = .ok r ∧ toSingle se m = .ok x ∧
      related se feastol approx st.rel (isVar st.left, isVar st.right) l r = .ok m := by
  unfold Stmt.single at h
  obtain ⟨m, hm, hc⟩ := except_bind_ok h
  unfold Stmt.make at hm
  obtain ⟨l, hl, h1⟩ := except_bind_ok hm
  obtain ⟨r, hr, h2⟩ := except_bind_ok h1
  exact ⟨l, r, m, hl, hr, hc, h2⟩

theorem single_ne {se : Bool} {feastol : ℝ} {approx : PyVal V ℝ D → Except Err Unit} {vunits : V → Option (UnitQ D ℝ)} {st : Stmt V} {n : Nomial V ℝ D} :
    st.single se feastol approx vunits ≠ .ok (.eqn n) := by
  intro h
  obtain ⟨_, _, m, -, -, hc, -⟩ := single_inv h
  cases m with
  | ineq l o r => cases hc
  | equal l r => cases hc
  | truth t => cases hc
  | sig l o r u => cases u <;> cases hc

/-- For what statements make there is no further factor. -/
theorem _root_.Verif.Written.Single.HoldsFrom.of_single {se : Bool} {feastol : ℝ} {approx : PyVal V ℝ D → Except Err Unit} {vunits : V → Option (UnitQ D ℝ)}
    {st : Stmt V} {x : Single V D} {y pt : V → ℝ} {s : ℝ} (hh : x.HoldsFrom y s pt) (h : st.single se feastol approx vunits = .ok x) : x.Holds s pt := by
  cases x with
  | con c => exact hh
  | sig n => exact hh
  | eqn n => exact absurd h single_ne

theorem single_con {se : Bool} {feastol : ℝ} {approx : PyVal V ℝ D → Except Err Unit} {vunits : V → Option (UnitQ D ℝ)} {st : Stmt V} {c : Con V D}
    (h : st.single se feastol approx vunits = .ok (.con c)) : st.con se feastol approx vunits = .ok c := by
  unfold Stmt.single at h
  obtain ⟨m, hm, hc⟩ := except_bind_ok h
  unfold Stmt.con
  rw [hm]
  exact toSingle_con hc

/-- C75, constraints: a single constraint made from a statement, be it a constraint of a geometric program or a signomial inequality, holds exactly where
the statement is true. With a factor `s` to spare between its two parts, the statement is true up to the share `(s - 1)/(s + 1)` of the size of its sides. -/
theorem C75_meaning {se : Bool} {feastol : ℝ} {approx : PyVal V ℝ D → Except Err Unit} {vunits : V → Option (UnitQ D ℝ)}
    (hu : ∀ v, UnitOK (vunits v)) {st : Stmt V} {x : Single V D} (h : st.single se feastol approx vunits = .ok x) (pt : V → ℝ) (hpt : ∀ v, 0 < pt v) :
    (x.Holds 1 pt ↔ st.Holds 1 (physical vunits pt)) ∧ ∀ s, 1 ≤ s → x.Holds s pt → st.Within (share s) (physical vunits pt) := by
  obtain ⟨l, r, m, hl, hr, hc, hm⟩ := single_inv h
  obtain ⟨gl, vl⟩ := build_ok hu st.left hl
  obtain ⟨gr, vr⟩ := build_ok hu st.right hr
  have sl := build_size hpt hu st.left hl
  have sr := build_size hpt hu st.right hr
  have pl := PyVal.phys_le_size hpt gl
  have pr := PyVal.phys_le_size hpt gr
  have vl' : l.phys pt = st.left.denote (physical vunits pt) := vl pt hpt
  have vr' : r.phys pt = st.right.denote (physical vunits pt) := vr pt hpt
  rw [vl'] at pl
  rw [vr'] at pr
  cases x with
  | con c =>
    have hmean := C73_meaning hu (single_con h)
    refine ⟨hmean 1 pt (.inl hpt), fun s hs hh => ?_⟩
    exact within_of_holds hs (pl.trans sl) (pr.trans sr) ((hmean s pt (.inl hpt)).1 hh)
  | sig n =>
    obtain ⟨-, hun, hn⟩ := related_sig gl gr (build_canon hu st.left hl).tidy (build_canon hu st.right hr).tidy hm hc
    obtain ⟨hsz, hv⟩ := hn pt hpt
    have hup : 0 < unitScale n.hmap.units := hun
    refine ⟨?_, fun s hs hh => ?_⟩
    · show SigHolds 1 pt n ↔ _
      rw [sigHolds_one]
      have e1 : termsVal pt n.hmap.terms ≤ 0 ↔ physVal pt n.hmap ≤ 0 := by
        unfold physVal
        constructor
        · intro h; exact mul_nonpos_of_nonneg_of_nonpos hup.le h
        · intro h; by_contra h0; push Not at h0; exact absurd (mul_pos hup h0) (not_lt.2 h)
      rw [e1]
      unfold Stmt.Holds
      rcases hv with ⟨hr', hv⟩ | ⟨hr', hv⟩
      · rw [hr', hv, vl', vr']; simp only [Rel.Holds, one_mul, sub_nonpos]
      · rw [hr', hv, vl', vr']; simp only [Rel.Holds, one_mul, sub_nonpos]
    · replace hh : SigHolds s pt n := hh
      rw [sigHolds_iff hs] at hh
      have h1 : physVal pt n.hmap ≤ share s * physSize pt n.hmap := by
        unfold physVal physSize
        rw [mul_left_comm]
        exact mul_le_mul_of_nonneg_left hh hup.le
      have h2 : physVal pt n.hmap ≤ share s * (st.left.size (physical vunits pt) + st.right.size (physical vunits pt)) :=
        h1.trans (mul_le_mul_of_nonneg_left (by linarith) (share_nonneg hs))
      unfold Stmt.Within
      rcases hv with ⟨hr', hv⟩ | ⟨hr', hv⟩
      · rw [hr']; rw [hv, vl', vr'] at h2; exact h2
      · rw [hr']; rw [hv, vl', vr'] at h2; exact h2
  | eqn n => exact absurd h single_ne

theorem single_lacks {se : Bool} {feastol : ℝ} {approx : PyVal V ℝ D → Except Err Unit} {vunits : V → Option (UnitQ D ℝ)}
    (hu : ∀ v, UnitOK (vunits v)) {st : Stmt V} {x : Single V D} (h : st.single se feastol approx vunits = .ok x) {v : V} (hl : v ∉ st.left.vars)
    (hr : v ∉ st.right.vars) : x.Lacks v := by
  obtain ⟨l, r, m, h1, h2, hc, hm⟩ := single_inv h
  exact related_lacks (build_lacks hu st.left hl h1) (build_lacks hu st.right hr h2) hm hc

theorem single_tidy {se : Bool} {feastol : ℝ} {approx : PyVal V ℝ D → Except Err Unit} {vunits : V → Option (UnitQ D ℝ)}
    (hu : ∀ v, UnitOK (vunits v)) {st : Stmt V} {n : Nomial V ℝ D} (h : st.single se feastol approx vunits = .ok (.sig n)) :
    TermsTidy n.hmap.terms ∧ UnitOK n.hmap.units := by
  obtain ⟨l, r, m, hl, hr, hc, hm⟩ := single_inv h
  obtain ⟨a, b, -⟩ := related_sig (build_ok hu st.left hl).1 (build_ok hu st.right hr).1 (build_canon hu st.left hl).tidy
    (build_canon hu st.right hr).tidy hm hc
  exact ⟨a, b⟩

/-! ### Whole models -/

/-- What is asked of a single constraint. -/
def SingleOK (fixed : PyDict V ℝ) (ord : Orders V ℝ) : Single V D → Prop
  | .con c => ConOK c
  | .sig n => TermsTidy n.hmap.terms ∧ UnitOK n.hmap.units ∧ ∀ l, (Single.sig n).become fixed ord = .ok l → ∀ c ∈ l, Unharmed c
  | .eqn n => TermsTidy n.hmap.terms ∧ UnitOK n.hmap.units

/-- What a single constraint becomes. -/
theorem become_ok {fixed : PyDict V ℝ} {ord : Orders V ℝ} (ho : ord.Valid) {x : Single V D} (hx : SingleOK fixed ord x) {l : List (Con V D)}
    (h : x.become fixed ord = .ok l) :
    (∀ c ∈ l, ConOK c) ∧ (∀ v, x.Lacks v → ∀ c ∈ l, ConAbsent v c) ∧
    ∀ pt : V → ℝ, (∀ v, 0 < pt v) → Agrees pt fixed →
      (∀ s, 1 ≤ s → (∀ c ∈ l, c.Holds s pt) → x.Holds s pt) ∧ (x.Holds 1 pt → ∀ c ∈ l, c.Holds 1 pt) := by
  cases x with
  | con c =>
    cases h
    refine ⟨by simpa [SingleOK] using hx, fun v hv => by simpa [Single.Lacks] using hv, fun pt hpt hag => ⟨fun s hs hall => hall c (by simp), fun hh => ?_⟩⟩
    simpa [Single.Holds] using hh
  | sig n =>
    obtain ⟨a, b, c⟩ := become_sig hx.1 hx.2.1 ho h
    exact ⟨fun k hk => b k hk (hx.2.2 l h k hk), c, a⟩
  | eqn n => cases h

theorem ConOK.mono {c : Con V D} (hc : ConOK c) {s s' : ℝ} (hss : s ≤ s') {pt : V → ℝ} (hpt : ∀ v, 0 < pt v) (h : c.Holds s pt) : c.Holds s' pt := by
  have mono : ∀ {m : NMap V ℝ D} {e : HV V ℝ} {k : ℝ}, m.terms = [(e, k)] → 0 < k → UnitOK m.units → 0 ≤ physVal pt m := by
    intro m e k hm hk hu
    unfold physVal
    rw [hm]
    have : 0 < unitScale m.units := hu
    refine mul_nonneg this.le ?_
    rw [termsVal_cons, termsVal_nil, add_zero]
    exact mul_nonneg hk.le (monVal_pos hpt _).le
  cases c with
  | le se p m =>
    obtain ⟨-, -, -, e, k, hm, -, hk, -, hu, -⟩ := hc
    exact h.trans (mul_le_mul_of_nonneg_right hss (mono hm hk hu))
  | eq se l r =>
    obtain ⟨e, e', k, k', hl, hr, -, -, hk, hk', hu, hu'⟩ := hc
    exact ⟨h.1.trans (mul_le_mul_of_nonneg_right hss (mono hr hk' hu')), h.2.trans (mul_le_mul_of_nonneg_right hss (mono hl hk hu))⟩

open Building in
/-- What is asked of a model with signomials whatever its constraints are written as, given their meaning and that of the cost. -/
structure SigModel {C : Type} (S : Setting V D C) (made : C → Except Err (List (Single V D))) (cost : Except Err (PyVal V ℝ D))
    (costs : (V → ℝ) → ℝ) (tree : Building.Expr V ℝ C) : Prop where
  feastol : 0 ≤ S.feastol
  ord : S.ord.Valid
  isSet : tree.isSet
  fair : Fair tree
  values : ∀ k w, GivenValue S tree k w → 0 < w
  cost : ∀ n, cost = .ok (.nom n) → TermsCanonical n.hmap.terms ∧ n.hmap.terms ≠ [] ∧ UnitOK n.hmap.units ∧ ∀ pt, (∀ v, 0 < pt v) → physVal pt n.hmap = costs pt
  cons : ∀ st l, Writes st tree → made st = .ok l → ∀ x ∈ l, ∀ fixed : PyDict V ℝ, (∀ k w, fixed.get? k = some w → GivenValue S tree k w) →
    SingleOK fixed S.ord x

open Building in
/-- The steps of making a model. -/
theorem made_ok {C : Type} {S : Setting V D C} {made : C → Except Err (List (Single V D))} {cost : Except Err (PyVal V ℝ D)}
    {costs : (V → ℝ) → ℝ} {tree : Building.Expr V ℝ C} (hS : SigModel S made cost costs tree) {hv : Heap ℝ × Val V ℝ C} {s : Set' V ℝ C}
    {singles : List (List (Single V D))}
    (h1 : eval S.world tree S.heap = .ok hv) (hs : theSet hv.2 = .ok s) (hm : s.cons.mapM made = .ok singles) :
    (∀ x ∈ singles.flatten, ∃ st l, Writes st tree ∧ made st = .ok l ∧ x ∈ l) ∧
    (∀ st, Writes st tree → ∃ l, made st = .ok l ∧ ∀ x ∈ l, x ∈ singles.flatten) ∧
    s.subs.WF ∧ (∀ k w, s.subs.get? k = some w → GivenValue S tree k w) ∧ (∀ k w, GivenValue S tree k w → ∃ w', s.subs.get? k = some w') := by
  obtain ⟨h', s', e1, e2, e3, e4, e5, e6⟩ := C72_contents_partial S.world hS.fair hS.isSet S.heap
  rw [h1] at e1
  cases e1
  cases hs
  obtain ⟨m1, m2⟩ := mapM_forall hm
  refine ⟨fun x hx => ?_, fun st hst => ?_, wf_eval hS.isSet h1, fun k w hk => e5 k w hk, fun k w hw => ?_⟩
  · obtain ⟨l, hl, hxl⟩ := List.mem_flatten.1 hx
    obtain ⟨st, hst, hl'⟩ := m2 l hl
    exact ⟨st, l, (e2 st).1 hst, hl', hxl⟩
  · obtain ⟨l, hl, hl'⟩ := m1 st ((e2 st).2 hst)
    exact ⟨l, hl', fun x hx => List.mem_flatten.2 ⟨l, hl, hx⟩⟩
  · have : s.subs.get? k ≠ none := (e4 k).2 (hw.imp (fun h => ⟨w, h⟩) (fun ⟨i, hi, hk, hh⟩ => ⟨i, hi, hk, by rw [hh]; exact Option.some_ne_none _⟩))
    exact Option.ne_none_iff_exists'.1 this

open Building in
/-- The steps of `solve`. -/
theorem solveOf_ok {C : Type} {S : Setting V D C} {made : C → Except Err (List (Single V D))} {cost : Except Err (PyVal V ℝ D)}
    {costs : (V → ℝ) → ℝ} {tree : Building.Expr V ℝ C} (hS : SigModel S made cost costs tree) {r : Result V} {b : Bool}
    (h : solveOf S made cost tree = .ok (r, b)) :
    ∃ (n : Nomial V ℝ D) (cons : List (Con V D)) (subs : PyDict V ℝ),
      TermsCanonical n.hmap.terms ∧ n.hmap.terms ≠ [] ∧ UnitOK n.hmap.units ∧
      (∀ pt, (∀ v, 0 < pt v) → physVal pt n.hmap = costs pt) ∧
      (∀ c ∈ cons, ConOK c) ∧
      (∀ pt : V → ℝ, (∀ v, 0 < pt v) → Agrees pt subs →
        (∀ s, 1 ≤ s → (∀ c ∈ cons, c.Holds s pt) → ∀ st, Writes st tree → ∃ l, made st = .ok l ∧ ∀ x ∈ l, x.Holds s pt) ∧
        ((∀ st l, Writes st tree → made st = .ok l → ∀ x ∈ l, x.Holds 1 pt) → ∀ c ∈ cons, c.Holds 1 pt)) ∧
      subs.WF ∧ (∀ k w, subs.get? k = some w → GivenValue S tree k w) ∧ (∀ k w, GivenValue S tree k w → ∃ w', subs.get? k = some w') ∧
      Pipeline.solve S.feastol S.tol S.abstol S.optimize n.hmap cons subs S.ord = .ok (r, b) := by
  unfold solveOf at h
  obtain ⟨hv, h1, h2⟩ := except_bind_ok h
  obtain ⟨s, hs, h3⟩ := except_bind_ok h2
  obtain ⟨singles, hm, h4⟩ := except_bind_ok h3
  obtain ⟨cons, hc, h5⟩ := except_bind_ok h4
  obtain ⟨x, hx, h6⟩ := except_bind_ok h5
  obtain ⟨c, hcost, h7⟩ := except_bind_ok h6
  obtain ⟨a1, a2, a3, a4, a5⟩ := made_ok hS h1 hs hm
  have hok : ∀ x ∈ singles.flatten, SingleOK s.subs S.ord x := by
    intro x hx
    obtain ⟨st, l, hw, hl, hxl⟩ := a1 x hx
    exact hS.cons st l hw hl x hxl s.subs a4
  obtain ⟨m1, m2⟩ := mapM_forall hc
  cases x with
  | num q => cases hcost
  | nom n =>
    cases hcost
    obtain ⟨c1, c2, c3, c4⟩ := hS.cost n hx
    refine ⟨n, cons.flatten, s.subs, c1, c2, c3, c4, ?_, fun pt hpt hag => ⟨?_, ?_⟩, a3, a4, a5, h7⟩
    · intro c hcm
      obtain ⟨l, hl, hcl⟩ := List.mem_flatten.1 hcm
      obtain ⟨x, hx, hxl⟩ := m2 l hl
      exact (become_ok hS.ord (hok x hx) hxl).1 c hcl
    · intro t ht hall st hst
      obtain ⟨l, hl, hin⟩ := a2 st hst
      refine ⟨l, hl, fun x hx => ?_⟩
      obtain ⟨l', hl', hb⟩ := m1 x (hin x hx)
      exact ((become_ok hS.ord (hok x (hin x hx)) hb).2.2 pt hpt hag).1 t ht (fun c hc => hall c (List.mem_flatten.2 ⟨l', hl', hc⟩))
    · intro hall c hcm
      obtain ⟨l, hl, hcl⟩ := List.mem_flatten.1 hcm
      obtain ⟨x, hx, hxl⟩ := m2 l hl
      obtain ⟨st, l', hw, hl', hxl'⟩ := a1 x hx
      exact ((become_ok hS.ord (hok x hx) hxl).2.2 pt hpt hag).2 (hall st l' hw hl' x hxl') c hcl

open Building in
/-- Feasibility of what `solve` returns. -/
theorem solve_feasible {C : Type} {S : Setting V D C} {made : C → Except Err (List (Single V D))}
    {cost : Except Err (PyVal V ℝ D)} {costs : (V → ℝ) → ℝ} {tree : Building.Expr V ℝ C} (hS : SigModel S made cost costs tree) {r : Result V}
    (h : solveOf S made cost tree = .ok (r, true)) :
    (∀ k w, GivenValue S tree k w → ∃ w', GivenValue S tree k w' ∧ r.vars.get? k = some w') ∧
    (∀ v c, r.vars.get? v = some c → 0 < c) ∧
    ∃ u, 0 < u ∧ ∀ pt : V → ℝ, (∀ v, 0 < pt v) → Agrees pt r.vars →
      (∀ st, Writes st tree → ∃ l, made st = .ok l ∧ ∀ x ∈ l, x.Holds (1 + max S.feastol S.tol) pt) ∧ Close S.tol S.abstol (costs pt / u) r.cost := by
  obtain ⟨n, cons, subs, hcc, hcne, hu, hcv, hok, hiff, hwf, hg1, hg2, hsol⟩ := solveOf_ok hS h
  obtain ⟨f1, f2, f3⟩ := feasible_of_pos hS.feastol hcc hcne hok hwf (fun v c hv => hS.values v c (hg1 v c hv)) hS.ord hsol
  refine ⟨fun k w hw => ?_, f2, unitScale n.hmap.units, hu, fun pt hpt hag => ?_⟩
  · obtain ⟨w', hw'⟩ := hg2 k w hw
    exact ⟨w', hg1 k w' hw', f1 k w' hw'⟩
  · obtain ⟨a1, a2⟩ := f3 pt hpt hag
    have h1 : 1 ≤ 1 + max S.feastol S.tol := by linarith [hS.feastol.trans (le_max_left S.feastol S.tol)]
    refine ⟨(hiff pt hpt (fun v c hv => hag v c (f1 v c hv))).1 _ h1 a1, ?_⟩
    rw [← hcv pt hpt, physVal, mul_comm, mul_div_assoc, div_self (ne_of_gt hu), mul_one]
    exact a2

open Building in
/-- Optimality of what `solve` returns. -/
theorem solve_optimal {C : Type} {S : Setting V D C} {made : C → Except Err (List (Single V D))}
    {cost : Except Err (PyVal V ℝ D)} {costs : (V → ℝ) → ℝ} {tree : Building.Expr V ℝ C} (hS : SigModel S made cost costs tree)
    (htol : S.tol = 0) (habs : S.abstol = 0)
    (hopt : ∀ d out l, S.optimize d = .ok out → out.dual = .la l → l.length = d.mIdxs.length ∨ l.length + 1 = d.mIdxs.length) {r : Result V}
    (h : solveOf S made cost tree = .ok (r, true)) :
    ∃ u, 0 < u ∧ (∀ pt : V → ℝ, (∀ v, 0 < pt v) → Agrees pt r.vars → r.cost * u = costs pt) ∧
    ∀ pt : V → ℝ, (∀ v, 0 < pt v) → (∀ k w, GivenValue S tree k w → pt k = w) →
      (∀ st l, Writes st tree → made st = .ok l → ∀ x ∈ l, x.Holds 1 pt) → r.cost * u ≤ costs pt := by
  obtain ⟨n, cons, subs, hcc, hcne, hu, hcv, hok, hiff, hwf, hg1, hg2, hsol⟩ := solveOf_ok hS h
  have hfix : ∀ v c, subs.get? v = some c → 0 < c := fun v c hv => hS.values v c (hg1 v c hv)
  obtain ⟨-, -, f3⟩ := feasible_of_pos hS.feastol hcc hcne hok hwf hfix hS.ord hsol
  rw [htol, habs] at hsol f3
  refine ⟨unitScale n.hmap.units, hu, fun pt hpt hag => ?_, fun pt hpt hag hst => ?_⟩
  · obtain ⟨-, a2⟩ := f3 pt hpt hag
    have : termsVal pt n.hmap.terms = r.cost := by
      rcases a2 with a2 | a2 | a2
      · exact a2
      · simp only [zero_mul] at a2
        exact absurd a2 (not_lt.2 (abs_nonneg _))
      · exact absurd a2 (not_lt.2 (abs_nonneg _))
    rw [← hcv pt hpt, physVal, this, mul_comm]
  · have hag' : Agrees pt subs := fun v c hv => hag v c (hg1 v c hv)
    have := optimal_of_pos hS.feastol hcc hcne hok hfix hS.ord hopt hsol pt hpt hag' ((hiff pt hpt hag').2 hst)
    rw [← hcv pt hpt, physVal, mul_comm]
    exact mul_le_mul_of_nonneg_left this (le_of_lt hu)

/-- Where a single constraint goes in a `SequentialGeometricProgram`. -/
theorem sort_ok {fixed : PyDict V ℝ} {ord : Orders V ℝ} {x : Single V D} {p : List (Con V D) × List (Sg V D)} (h : x.sort fixed ord = .ok p) :
    (x.become fixed ord = .ok p.1 ∧ p.2 = [] ∧ ∀ n, x ≠ .eqn n) ∨ (∃ n, x = .sig n ∧ p = ([], [⟨n, false⟩])) ∨ ∃ n, x = .eqn n ∧ p = ([], [⟨n, true⟩]) := by
  unfold Single.sort at h
  split at h
  · rename_i l hl
    cases h
    exact .inl ⟨hl, rfl, fun n hn => by rw [hn] at hl; cases hl⟩
  · cases h
    exact .inr (.inl ⟨_, rfl, rfl⟩)
  · cases h
    exact .inr (.inr ⟨_, rfl, rfl⟩)
  · cases h

open Building in
/-- The program of a model for `localsolve`. -/
theorem setupOf_ok {N C : Type} [DecidableEq N] {S : Setting V D C} {L : Local V N D} {made : C → Except Err (List (Single V D))} {cost : Except Err (PyVal V ℝ D)}
    {costs : (V → ℝ) → ℝ} {tree : Building.Expr V ℝ C} (hS : SigModel S made cost costs tree) (hset : ∀ l, (L.setord l).Perm l)
    (hslack : ∀ v, L.slack = some v → (∀ w, ¬ GivenValue S tree v w) ∧ (∀ n, cost = .ok (.nom n) → Absent v n.hmap.terms) ∧
      ∀ st l, Writes st tree → made st = .ok l → ∀ x ∈ l, x.Lacks v) {Z : Setup V D} (h : setupOf S L made cost tree = .ok Z) :
    SeqGP.OK Z ∧ Z.feastol = S.feastol ∧ Z.slack = L.slack ∧ Z.penalty = L.penalty ∧ UnitOK Z.cost.units ∧
    (∀ pt, (∀ v, 0 < pt v) → physVal pt Z.cost = costs pt) ∧
    (∀ k w, Z.fixed.get? k = some w → GivenValue S tree k w) ∧ (∀ k w, GivenValue S tree k w → ∃ w', Z.fixed.get? k = some w') ∧
    ∀ pt : V → ℝ, (∀ v, 0 < pt v) → Agrees pt Z.fixed → ∀ s s', 1 ≤ s → s ≤ s' → (∀ c ∈ Z.cons, c.Holds s pt) → ∀ y, (∀ sig ∈ Z.sigs, sig.Holds y s' pt) →
      ∀ st, Writes st tree → ∃ l, made st = .ok l ∧ ∀ x ∈ l, x.HoldsFrom y s' pt ∧ ∀ c, x = .con c → x.Holds s pt := by
  unfold setupOf at h
  obtain ⟨hv, h1, h2⟩ := except_bind_ok h
  obtain ⟨s, hs, h3⟩ := except_bind_ok h2
  obtain ⟨singles, hm, h4⟩ := except_bind_ok h3
  obtain ⟨x, hx, h5⟩ := except_bind_ok h4
  obtain ⟨c, hcost, h6⟩ := except_bind_ok h5
  obtain ⟨parts, hparts, h7⟩ := except_bind_ok h6
  obtain ⟨a1, a2, a3, a4, a5⟩ := made_ok hS h1 hs hm
  have hok : ∀ x ∈ singles.flatten, SingleOK s.subs S.ord x := by
    intro x hx
    obtain ⟨st, l, hw, hl, hxl⟩ := a1 x hx
    exact hS.cons st l hw hl x hxl s.subs a4
  have hlack : ∀ v, L.slack = some v → ∀ x ∈ singles.flatten, x.Lacks v := by
    intro v hv x hx
    obtain ⟨st, l, hw, hl, hxl⟩ := a1 x hx
    exact (hslack v hv).2.2 st l hw hl x hxl
  obtain ⟨m1, m2⟩ := mapM_forall hparts
  cases h7
  cases x with
  | num q => cases hcost
  | nom n =>
    cases hcost
    obtain ⟨c1, c2, c3, c4⟩ := hS.cost n hx
    have hcon : ∀ c ∈ (parts.map (·.1)).flatten, ∃ x ∈ singles.flatten, ∃ l, x.become s.subs S.ord = .ok l ∧ c ∈ l := by
      intro c hc
      obtain ⟨l, hl, hcl⟩ := List.mem_flatten.1 hc
      obtain ⟨p, hp, rfl⟩ := List.mem_map.1 hl
      obtain ⟨x, hx, hxp⟩ := m2 p hp
      rcases sort_ok hxp with ⟨hb, -⟩ | ⟨n, -, rfl⟩ | ⟨n, -, rfl⟩
      · exact ⟨x, hx, _, hb, hcl⟩
      · simp at hcl
      · simp at hcl
    have hsig : ∀ g ∈ (parts.map (·.2)).flatten, ∃ x ∈ singles.flatten, (x = .sig g.toNomial ∨ x = .eqn g.toNomial) := by
      intro g hn
      obtain ⟨l, hl, hcl⟩ := List.mem_flatten.1 hn
      obtain ⟨p, hp, rfl⟩ := List.mem_map.1 hl
      obtain ⟨x, hx, hxp⟩ := m2 p hp
      rcases sort_ok hxp with ⟨-, h0, -⟩ | ⟨n', rfl, rfl⟩ | ⟨n', rfl, rfl⟩
      · rw [h0] at hcl; simp at hcl
      · rw [List.mem_singleton] at hcl
        rw [hcl]
        exact ⟨_, hx, .inl rfl⟩
      · rw [List.mem_singleton] at hcl
        rw [hcl]
        exact ⟨_, hx, .inr rfl⟩
    refine ⟨⟨hS.feastol, hS.ord, hset, c1, c2, ?_, ?_, a3, fun v c hv => hS.values v c (a4 v c hv), ?_⟩, rfl, rfl, rfl, c3, c4, a4, a5, ?_⟩
    · intro c hc
      obtain ⟨x, hx, l, hb, hcl⟩ := hcon c hc
      exact (become_ok hS.ord (hok x hx) hb).1 c hcl
    · intro sig hn
      obtain ⟨x, hx, rfl | rfl⟩ := hsig sig hn
      · have := hok _ hx
        exact ⟨this.1, this.2.1⟩
      · have := hok _ hx
        exact ⟨this.1, this.2⟩
    · intro v hv
      refine ⟨?_, (hslack v hv).2.1 n hx, ?_, fun sig hn => ?_⟩
      · by_contra h0
        obtain ⟨w, hw⟩ := Option.ne_none_iff_exists'.1 h0
        exact (hslack v hv).1 w (a4 v w hw)
      · intro c hc
        obtain ⟨x, hx, l, hb, hcl⟩ := hcon c hc
        exact (become_ok hS.ord (hok x hx) hb).2.1 v (hlack v hv x hx) c hcl
      · obtain ⟨x, hx, rfl | rfl⟩ := hsig sig hn
        · exact hlack v hv _ hx
        · exact hlack v hv _ hx
    · intro pt hpt hag t t' ht htt hcons y hsigs st hst
      obtain ⟨l, hl, hin⟩ := a2 st hst
      refine ⟨l, hl, fun x hx => ?_⟩
      obtain ⟨p, hp, hxp⟩ := m1 x (hin x hx)
      have hmem : ∀ g ∈ p.2, g.Holds y t' pt := fun g hg => hsigs g (List.mem_flatten.2 ⟨p.2, List.mem_map.2 ⟨p, hp, rfl⟩, hg⟩)
      rcases sort_ok hxp with ⟨hb, -, hne⟩ | ⟨n, rfl, rfl⟩ | ⟨n, rfl, rfl⟩
      · have hall : ∀ c ∈ p.1, c.Holds t pt := fun c hc => hcons c (List.mem_flatten.2 ⟨p.1, List.mem_map.2 ⟨p, hp, rfl⟩, hc⟩)
        have hbo := become_ok hS.ord (hok x (hin x hx)) hb
        have hh := (hbo.2.2 pt hpt hag).1 t' (ht.trans htt) fun c hc => (hbo.1 c hc).mono htt hpt (hall c hc)
        refine ⟨?_, fun _ _ => (hbo.2.2 pt hpt hag).1 t ht hall⟩
        cases x with
        | con c => exact hh
        | sig n => exact hh
        | eqn n => exact absurd rfl (hne n)
      · exact ⟨(hmem ⟨n, false⟩ (by simp)).1 rfl, fun c hc => by cases hc⟩
      · exact ⟨(hmem ⟨n, true⟩ (by simp)).2 rfl, fun c hc => by cases hc⟩

/-- What C62 asks of the approximations during `localsolve`. -/
structure Regular {N : Type} [DecidableEq N] (Z : Setup V D) (L : Local V N D) (sp : Sp V) : Prop where
  sigs : ∀ sig ∈ Z.sigs, SigOK Z.vunits Z.ord Z.setord Z.fixed sig
  one : OneForm Z
  passes : ∀ n s' out, n ≤ L.lim → Z.passes L.optimize sp L.x0 n = .ok (s', out) → ∀ sig ∈ Z.sigs, SigOK Z.vunits Z.ord Z.setord s'.guess.x0 sig
  lengths : ∀ n s' out, n ≤ L.lim → Z.passes L.optimize sp L.x0 n = .ok (s', out) →
    s'.prog.hmaps.map (fun f => f.terms.length) = sp.prog.hmaps.map (fun f => f.terms.length)

open Building in
/-- What is asked of `localsolve` besides what is asked of the model. -/
structure LocalOK {N C : Type} [DecidableEq N] (S : Setting V D C) (L : Local V N D) (made : C → Except Err (List (Single V D)))
    (cost : Except Err (PyVal V ℝ D)) (tree : Building.Expr V ℝ C) : Prop where
  setord : ∀ l, (L.setord l).Perm l
  eps : 0 ≤ L.eps
  x0 : ∀ a, L.x0 = some a → ∀ v c, a.look v = some c → 0 < c
  regular : ∀ Z sp, setupOf S L made cost tree = .ok Z → Z.init = .ok sp → Regular Z L sp

open Building in
/-- Feasibility of what `localsolve` returns. -/
theorem local_feasible {N C : Type} [DecidableEq N] {S : Setting V D C} {L : Local V N D} {made : C → Except Err (List (Single V D))}
    {cost : Except Err (PyVal V ℝ D)} {costs : (V → ℝ) → ℝ} {tree : Building.Expr V ℝ C} (hS : SigModel S made cost costs tree)
    (hL : LocalOK S L made cost tree)
    (hslack : ∀ v, L.slack = some v → (∀ w, ¬ GivenValue S tree v w) ∧ (∀ n, cost = .ok (.nom n) → Absent v n.hmap.terms) ∧
      ∀ st l, Writes st tree → made st = .ok l → ∀ x ∈ l, x.Lacks v) {r : Result V} {w : Bool}
    (h : localOf S L made cost tree = .ok (r, true, w)) :
    (∀ k w, GivenValue S tree k w → ∃ w', GivenValue S tree k w' ∧ r.vars.get? k = some w') ∧
    (∀ v c, r.vars.get? v = some c → 0 < c) ∧
    ∃ u σ y, 0 < u ∧ 0 < σ ∧ (L.slack = none → σ = 1) ∧ (w = false → σ ≤ 1 + L.eps) ∧
      (w = true → ∃ v, L.slack = some v ∧ r.vars.get? v = some σ) ∧
      (∃ Z sp n s' out, setupOf S L made cost tree = .ok Z ∧ Z.init = .ok sp ∧ n ≤ L.lim ∧ Z.passes L.optimize sp L.x0 n = .ok (s', out) ∧
        ∀ v, y v = (s'.guess.x0.get? v).getD 1) ∧
      ∀ pt : V → ℝ, (∀ v, 0 < pt v) → Agrees pt r.vars →
        (∀ st, Writes st tree → ∃ l, made st = .ok l ∧ ∀ x ∈ l, x.HoldsFrom y ((1 + max S.feastol S.tol) * max 1 σ) pt ∧
          ∀ c, x = .con c → x.Holds (1 + max S.feastol S.tol) pt) ∧
        Close S.tol S.abstol (costs pt / u * σ ^ L.penalty) r.cost := by
  unfold localOf at h
  obtain ⟨Z, hZ, h1⟩ := except_bind_ok h
  obtain ⟨sp, hsp, h2⟩ := except_bind_ok h1
  obtain ⟨hok, hf, hsl, hpen, hu, hcv, hg1, hg2, hmean⟩ := setupOf_ok hS hL.setord hslack hZ
  have hR := hL.regular Z sp hZ hsp
  obtain ⟨f1, f2, σ, n, s', out, hn, hp, s1, -, s3, s4, s5, s6⟩ := C62_feasible_partial hok hR.sigs hR.one hsp hL.eps hL.x0 hR.passes hR.lengths h2
  rw [hsl] at s3 s5
  rw [hf, hpen] at s6
  refine ⟨fun k w hw => ?_, f2, unitScale Z.cost.units, σ, _, hu, s1, s3, s4, s5, ⟨Z, sp, n, s', out, hZ, hsp, hn, hp, fun _ => rfl⟩, fun pt hpt hag => ?_⟩
  · obtain ⟨w', hw'⟩ := hg2 k w hw
    exact ⟨w', hg1 k w' hw', f1 k w' hw'⟩
  · obtain ⟨a1, a2, a3⟩ := s6 pt hpt hag
    have h1 : 1 ≤ 1 + max S.feastol S.tol := by linarith [hS.feastol.trans (le_max_left S.feastol S.tol)]
    refine ⟨hmean pt hpt (fun v c hv => hag v c (f1 v c hv)) _ _ h1 ?_ a1 _ a2, ?_⟩
    · exact le_mul_of_one_le_right (by linarith) (le_max_left 1 σ)
    · have : costs pt / unitScale Z.cost.units = termsVal pt Z.cost.terms := by
        rw [← hcv pt hpt, physVal, mul_comm, mul_div_assoc, div_self (ne_of_gt hu), mul_one]
      rw [this]
      exact a3

/-! ### Models of statements -/

open Building in
/-- What C75 asks of a model: that of C73, except that statements which make signomial inequalities need not be attainable, and that what is left of them
after substitution must not have the defect of `C12_form_fails`. -/
structure SigSound (S : Setting V D (Stmt V)) (cost : Verif.Expr V) (tree : Building.Expr V ℝ (Stmt V)) : Prop where
  feastol : 0 ≤ S.feastol
  ord : S.ord.Valid
  units : ∀ v, UnitOK (S.vunits v)
  isSet : tree.isSet
  fair : Fair tree
  values : ∀ k w, GivenValue S tree k w → 0 < w
  cost : ∃ x : V → ℝ, (∀ v, 0 < x v) ∧ cost.denote (physical S.vunits x) ≠ 0
  gp : ∀ st c, Writes st tree → st.single (S.enabled st) S.feastol S.approx S.vunits = .ok (.con c) → Attainable (S.enabled st) S.vunits st ∧ Unharmed c
  sigs : ∀ st n, Writes st tree → st.single (S.enabled st) S.feastol S.approx S.vunits = .ok (.sig n) →
    ∀ fixed : PyDict V ℝ, (∀ k w, fixed.get? k = some w → GivenValue S tree k w) →
      ∀ l, (Single.sig n).become fixed S.ord = .ok l → ∀ c ∈ l, Unharmed c

theorem single_made {S : Setting V D (Stmt V)} {st : Stmt V} {l : List (Single V D)} (h : single S st = .ok l) :
    ∃ x, st.single (S.enabled st) S.feastol S.approx S.vunits = .ok x ∧ l = [x] := by
  unfold Written.single at h
  cases hx : st.single (S.enabled st) S.feastol S.approx S.vunits with
  | error e => rw [hx] at h; cases h
  | ok x => rw [hx] at h; cases h; exact ⟨x, rfl, rfl⟩

open Building in
theorem SigSound.model {S : Setting V D (Stmt V)} {cost : Verif.Expr V} {tree : Building.Expr V ℝ (Stmt V)} (hS : SigSound S cost tree) :
    SigModel S (single S) (cost.build false S.vunits) (fun pt => cost.denote (physical S.vunits pt)) tree where
  feastol := hS.feastol
  ord := hS.ord
  isSet := hS.isSet
  fair := hS.fair
  values := hS.values
  cost := by
    intro n hx
    obtain ⟨g, v⟩ := build_ok hS.units cost hx
    refine ⟨build_canon hS.units cost hx, ?_, g.1, v⟩
    obtain ⟨pt, hpt, hne⟩ := hS.cost
    intro h0
    have := v pt hpt
    apply hne
    show cost.denote (fun v => unitScale (S.vunits v) * pt v) = 0
    rw [← this]
    simp [PyVal.phys, physVal, h0]
  cons := by
    intro st l hw hl x hx fixed hfix
    obtain ⟨x', hx', rfl⟩ := single_made hl
    rw [List.mem_singleton] at hx
    subst hx
    cases x with
    | con c =>
      obtain ⟨a, b⟩ := hS.gp st c hw hx'
      exact con_ok hS.units (single_con hx') a b
    | sig n =>
      obtain ⟨a, b⟩ := single_tidy hS.units hx'
      exact ⟨a, b, hS.sigs st n hw hx' fixed hfix⟩
    | eqn n => exact absurd hx' single_ne

open Building in
/-- C75, `solve`: if making and solving a model with signomials returns without a warning, then at the values returned every statement that is written in the
model, at whatever depth, is true up to a share of the size of its sides that vanishes with the tolerances; every variable that was given a value has it; and
the cost returned is that of these values. Missing: see `SigSound`. -/
theorem C75_solution_partial {S : Setting V D (Stmt V)} {cost : Verif.Expr V} {tree : Building.Expr V ℝ (Stmt V)} (hS : SigSound S cost tree) {r : Result V}
    (h : Written.solve S cost tree = .ok (r, true)) :
    (∀ k w, GivenValue S tree k w → ∃ w', GivenValue S tree k w' ∧ r.vars.get? k = some w') ∧
    (∀ v c, r.vars.get? v = some c → 0 < c) ∧
    ∃ u, 0 < u ∧ ∀ pt : V → ℝ, (∀ v, 0 < pt v) → Agrees pt r.vars →
      (∀ st, Writes st tree → st.Within (share (1 + max S.feastol S.tol)) (physical S.vunits pt)) ∧
      Close S.tol S.abstol (cost.denote (physical S.vunits pt) / u) r.cost := by
  obtain ⟨f1, f2, u, hu, f3⟩ := solve_feasible hS.model h
  refine ⟨f1, f2, u, hu, fun pt hpt hag => ⟨fun st hst => ?_, (f3 pt hpt hag).2⟩⟩
  obtain ⟨l, hl, hall⟩ := (f3 pt hpt hag).1 st hst
  obtain ⟨x, hx, rfl⟩ := single_made hl
  have h1 : 1 ≤ 1 + max S.feastol S.tol := by linarith [hS.feastol.trans (le_max_left S.feastol S.tol)]
  exact (C75_meaning hS.units hx pt hpt).2 _ h1 (hall x (by simp))

open Building in
/-- C75, optimality: if the check is exact, no point at which every statement in the model is true and every variable has the values given for it costs less
than what is returned. Missing: see `SigSound`. -/
theorem C75_optimal_partial {S : Setting V D (Stmt V)} {cost : Verif.Expr V} {tree : Building.Expr V ℝ (Stmt V)} (hS : SigSound S cost tree)
    (htol : S.tol = 0) (habs : S.abstol = 0)
    (hopt : ∀ d out l, S.optimize d = .ok out → out.dual = .la l → l.length = d.mIdxs.length ∨ l.length + 1 = d.mIdxs.length) {r : Result V}
    (h : Written.solve S cost tree = .ok (r, true)) :
    ∃ u, 0 < u ∧ (∀ pt : V → ℝ, (∀ v, 0 < pt v) → Agrees pt r.vars → r.cost * u = cost.denote (physical S.vunits pt)) ∧
    ∀ pt : V → ℝ, (∀ v, 0 < pt v) → (∀ k w, GivenValue S tree k w → pt k = w) →
      (∀ st, Writes st tree → st.Holds 1 (physical S.vunits pt)) → r.cost * u ≤ cost.denote (physical S.vunits pt) := by
  obtain ⟨u, hu, f1, f2⟩ := solve_optimal hS.model htol habs hopt h
  refine ⟨u, hu, f1, fun pt hpt hag hst => f2 pt hpt hag fun st l hw hl x hx => ?_⟩
  obtain ⟨x', hx', rfl⟩ := single_made hl
  rw [List.mem_singleton] at hx
  subst hx
  exact (C75_meaning hS.units hx' pt hpt).1.2 (hst st hw)

open Building in
/-- The slack variable is one of its own. -/
def OwnSlack {N : Type} (S : Setting V D (Stmt V)) (L : Local V N D) (cost : Verif.Expr V) (tree : Building.Expr V ℝ (Stmt V)) : Prop :=
  ∀ v, L.slack = some v → (∀ w, ¬ GivenValue S tree v w) ∧ v ∉ cost.vars ∧ ∀ st, Writes st tree → v ∉ st.left.vars ∧ v ∉ st.right.vars

open Building in
/-- C75, `localsolve`: if making a model with signomials and solving it locally returns and the check of the solution passes, then at the values returned every
statement that is written in the model is true up to a share of the size of its sides, which vanishes with the tolerances and the slack; statements that make
no signomial inequality are not affected by the slack; every variable that was given a value has it; and the cost returned is that of these values times a
penalty for the slack. Without a warning of slack it is at most `1 + eps`. Missing: see `SigSound`, and what C62 is missing. -/
theorem C75_local_partial {N : Type} [DecidableEq N] {S : Setting V D (Stmt V)} {L : Local V N D} {cost : Verif.Expr V} {tree : Building.Expr V ℝ (Stmt V)}
    (hS : SigSound S cost tree) (hL : LocalOK S L (single S) (cost.build false S.vunits) tree) (hslack : OwnSlack S L cost tree) {r : Result V} {w : Bool}
    (h : Written.localsolve S L cost tree = .ok (r, true, w)) :
    (∀ k w, GivenValue S tree k w → ∃ w', GivenValue S tree k w' ∧ r.vars.get? k = some w') ∧
    (∀ v c, r.vars.get? v = some c → 0 < c) ∧
    ∃ u σ, 0 < u ∧ 0 < σ ∧ (L.slack = none → σ = 1) ∧ (w = false → σ ≤ 1 + L.eps) ∧
      (w = true → ∃ v, L.slack = some v ∧ r.vars.get? v = some σ) ∧
      ∀ pt : V → ℝ, (∀ v, 0 < pt v) → Agrees pt r.vars →
        (∀ st, Writes st tree → st.Within (share ((1 + max S.feastol S.tol) * max 1 σ)) (physical S.vunits pt) ∧
          ((∃ c, st.con (S.enabled st) S.feastol S.approx S.vunits = .ok c) → st.Holds (1 + max S.feastol S.tol) (physical S.vunits pt))) ∧
        Close S.tol S.abstol (cost.denote (physical S.vunits pt) / u * σ ^ L.penalty) r.cost := by
  have hsl : ∀ v, L.slack = some v → (∀ w, ¬ GivenValue S tree v w) ∧ (∀ n, cost.build false S.vunits = .ok (.nom n) → Absent v n.hmap.terms) ∧
      ∀ st l, Writes st tree → single S st = .ok l → ∀ x ∈ l, x.Lacks v := by
    intro v hv
    obtain ⟨a, b, c⟩ := hslack v hv
    refine ⟨a, fun n hn => build_lacks hS.units cost b hn, fun st l hw hl x hx => ?_⟩
    obtain ⟨x', hx', rfl⟩ := single_made hl
    rw [List.mem_singleton] at hx
    subst hx
    exact single_lacks hS.units hx' (c st hw).1 (c st hw).2
  obtain ⟨f1, f2, u, σ, y, hu, s1, s2, s3, s4, -, f3⟩ := local_feasible hS.model hL hsl h
  refine ⟨f1, f2, u, σ, hu, s1, s2, s3, s4, fun pt hpt hag => ⟨fun st hst => ?_, (f3 pt hpt hag).2⟩⟩
  obtain ⟨l, hl, hall⟩ := (f3 pt hpt hag).1 st hst
  obtain ⟨x, hx, rfl⟩ := single_made hl
  have h1 : 1 ≤ 1 + max S.feastol S.tol := by linarith [hS.feastol.trans (le_max_left S.feastol S.tol)]
  have h2 := hall x (by simp)
  refine ⟨(C75_meaning hS.units hx pt hpt).2 _ (h1.trans (le_mul_of_one_le_right (by linarith) (le_max_left 1 σ))) (h2.1.of_single hx), ?_⟩
  rintro ⟨c, hc⟩
  have hxc : x = .con c := by
    unfold Stmt.con at hc
    obtain ⟨m, hm, hc⟩ := except_bind_ok hc
    unfold Stmt.single at hx
    rw [hm] at hx
    cases m with
    | ineq l o r => cases hc; cases hx; rfl
    | equal l r => cases hc; cases hx; rfl
    | truth t => cases hc
    | sig l o r u => cases hc
  have h3 := h2.2 c hxc
  rw [hxc] at h3
  exact (C73_meaning hS.units hc _ pt (.inl hpt)).1 h3

/-! ### What a share of the size is -/

/-- For two nonnegative numbers the share is the same as the factor. -/
theorem C75_share {s : ℝ} (hs : 1 ≤ s) (rel : Rel) (l r : ℝ) : rel.Within (share s * (l + r)) l r ↔ rel.Holds s l r := by
  cases rel with
  | le => exact (le_mul_iff_share hs l r).symm
  | ge => rw [add_comm]; exact (le_mul_iff_share hs r l).symm
  | eq =>
    show |l - r| ≤ _ ↔ l ≤ s * r ∧ r ≤ s * l
    rw [le_mul_iff_share hs, le_mul_iff_share hs, add_comm r l, abs_le]
    constructor
    · rintro ⟨h1, h2⟩; constructor <;> linarith
    · rintro ⟨h1, h2⟩; constructor <;> linarith

end Signomials

/-- Expressions in which nothing is subtracted and no number is negative. -/
def _root_.Verif.Expr.Sums {V : Type} : Verif.Expr V → Prop
  | .var _ => True
  | .num c => 0 ≤ c
  | .add a b => a.Sums ∧ b.Sums
  | .sub _ _ => False
  | .mul a b => a.Sums ∧ b.Sums
  | .div a b => a.Sums ∧ b.Sums
  | .neg _ => False
  | .pow a _ => a.Sums

/-- C75, sizes: for positive variables an expression without differences is as large as its size, so that by `C75_share` what C75 says of statements without
differences is what C73 says of them. -/
theorem C75_size {V : Type} {x : V → ℝ} (hx : ∀ v, 0 < x v) (e : Verif.Expr V) (he : e.Sums) : e.size x = e.denote x ∧ 0 ≤ e.denote x := by
  induction e with
  | var v => exact ⟨abs_of_pos (hx v), (hx v).le⟩
  | num c => exact ⟨abs_of_nonneg he, he⟩
  | add a b iha ihb =>
    obtain ⟨a1, a2⟩ := iha he.1
    obtain ⟨b1, b2⟩ := ihb he.2
    simp only [Expr.size, Expr.denote, a1, b1]
    exact ⟨trivial, add_nonneg a2 b2⟩
  | sub a b => exact he.elim
  | mul a b iha ihb =>
    obtain ⟨a1, a2⟩ := iha he.1
    obtain ⟨b1, b2⟩ := ihb he.2
    simp only [Expr.size, Expr.denote, a1, b1]
    exact ⟨trivial, mul_nonneg a2 b2⟩
  | div a b iha ihb =>
    obtain ⟨a1, a2⟩ := iha he.1
    obtain ⟨b1, b2⟩ := ihb he.2
    simp only [Expr.size, Expr.denote, a1, abs_of_nonneg b2]
    exact ⟨trivial, div_nonneg a2 b2⟩
  | neg a => exact he.elim
  | pow a p iha =>
    obtain ⟨a1, a2⟩ := iha he
    cases p with
    | int z =>
      simp only [Expr.size, Expr.denote, a1]
      refine ⟨?_, Real.rpow_nonneg a2 _⟩
      split
      · rename_i hz
        obtain ⟨n, rfl⟩ := Int.eq_ofNat_of_zero_le hz
        simp [PyExpo.toK]
      · exact abs_of_nonneg (Real.rpow_nonneg a2 _)
    | float y =>
      simp only [Expr.size, Expr.denote]
      exact ⟨abs_of_nonneg (Real.rpow_nonneg a2 _), Real.rpow_nonneg a2 _⟩

/-! ### Examples -/

/-- `1 - x <= 0`. -/
def sig0 : Stmt ℕ := ⟨.sub (.num 1) (.var 0), .le, .num 0⟩
/-- `2 <= x + x**2`. -/
def sig1 : Stmt ℕ := ⟨.num 2, .le, .add (.var 0) (.pow (.var 0) (.int 2))⟩

theorem sig0_left : sig0.left.build true (fun _ => none) = .ok (.nom ⟨⟨[(⟨[(0, 1)]⟩, -1), (HV.empty, 1)], none⟩, .signomial⟩ : PyVal ℕ ℝ ℝ) := by
  norm_num [sig0, Expr.build, PyVal.sub, PyVal.neg, PyVal.add, Nomial.neg, Nomial.mulNum, Nomial.addNum, varNomial, mkSig, numMap, NMap.anyNonpositive, bind, Except.bind,
    pure, Except.pure, NMap.add, NMap.scale, NMap.unitsOfProduct, PyDict.get?, PyDict.set, PyDict.del,
      HV.beq_def, List.isPerm, HV.empty, dictAdd, dictAddStep, dictScale, Except.map]

theorem sig1_right : sig1.right.build true (fun _ => none) = .ok (.nom ⟨⟨[(⟨[(0, 1)]⟩, 1), (⟨[(0, 2)]⟩, 1)], none⟩, .posynomial⟩ : PyVal ℕ ℝ ℝ) := by
  norm_num [sig1, Expr.build, PyVal.add, PyVal.pow, Nomial.add, Nomial.monoPow, Nomial.addNum, varNomial, mkSig, numMap, NMap.anyNonpositive, bind, Except.bind,
    pure, Except.pure, NMap.add, NMap.scale, NMap.unitsOfProduct, PyDict.get?, PyDict.set, PyDict.del, pwDom, pw, PyExpo.toK, rank,
      HV.beq_def, List.isPerm, HV.empty, dictAdd, dictAddStep, dictScale, Except.map, HV.scale]


theorem sig0_single : sig0.single true (1 / 1000) (fun _ => .ok ()) (fun _ => none) =
    .ok (.sig ⟨⟨[(⟨[(0, 1)]⟩, -1), (HV.empty, 1)], none⟩, .signomial⟩ : Single ℕ ℝ) := by
  unfold Stmt.single Stmt.make
  rw [sig0_left]
  norm_num [sig0, Expr.build, related, compared, method, firstOf, isPosys, isMons, sigIneq, side, mkSig, numMap, NMap.anyNonpositive, bind, Except.bind,
    pure, Except.pure, toSingle, Op.order, PyVal.sub, PyVal.neg, PyVal.add, Nomial.add, Nomial.neg, Nomial.mulNum, NMap.scale, NMap.unitsOfProduct, NMap.add,
    dictAdd, dictAddStep, dictScale, PyDict.get?, PyDict.set, PyDict.del, HV.beq_def, List.isPerm, HV.empty, isVar, rank]

theorem sig1_single : sig1.single true (1 / 1000) (fun _ => .ok ()) (fun _ => none) = .ok (.sig seqSig : Single ℕ ℝ) := by
  unfold Stmt.single Stmt.make
  rw [sig1_right]
  norm_num [seqSig, sig1, Expr.build, related, compared, method, firstOf, isPosys, isMons, sigIneq, side, mkSig, numMap, NMap.anyNonpositive, bind, Except.bind,
    pure, Except.pure, toSingle, Op.order, Op.swap, PyVal.sub, PyVal.neg, PyVal.add, Nomial.add, Nomial.neg, Nomial.mulNum, NMap.scale, NMap.unitsOfProduct, NMap.add,
    dictAdd, dictAddStep, dictScale, PyDict.get?, PyDict.set, PyDict.del, HV.beq_def, List.isPerm, HV.empty, isVar, rank]

theorem sig0_become : (Single.sig ⟨⟨[(⟨[(0, 1)]⟩, -1), (HV.empty, 1)], none⟩, .signomial⟩ : Single ℕ ℝ).become [] (fun h f => varlocs h f) =
    .ok [.le false ⟨[(HV.empty, 1)], none⟩ ⟨[(⟨[(0, 1)]⟩, 1)], none⟩] := by
  norm_num [Nomial.posyOrZero, Nomial.posyNegyStep, PyDict.set, PyDict.get?, HV.beq_def, List.isPerm, Except.map, Single.become, NMap.sub, subState, mkSig, Nomial.posyNegy, bind, Except.bind, pure, Except.pure, NMap.anyNonpositive, List.filter_cons,
    varlocs, varlocKeys, HV.empty]

theorem sig1_become : (Single.sig seqSig).become [] (fun h f => varlocs h f) = .error .invalidGPConstraint := by
  norm_num [Nomial.posyOrZero, Nomial.posyNegyStep, PyDict.set, PyDict.get?, HV.beq_def, List.isPerm, Except.map, seqSig, Single.become, NMap.sub, subState, mkSig, Nomial.posyNegy, bind, Except.bind, pure, Except.pure, NMap.anyNonpositive, List.filter_cons,
    varlocs, varlocKeys, HV.empty]

/-- A model with a submodel that has one constraint. -/
def treeOf (st : Stmt ℕ) : Building.Expr ℕ ℝ (Stmt ℕ) := .mdl [] [0] (.lst [.mdl [] [] (.lst [.con st [0] true]) [] none]) [] none

/-- As `setting0`, inside `SignomialsEnabled`. -/
noncomputable def settingSE : Setting ℕ ℝ (Stmt ℕ) := { setting0 with enabled := fun _ => true }

theorem inside_treeOf {st : Stmt ℕ} {x : Building.Expr ℕ ℝ (Stmt ℕ)} (h : Building.Inside x (treeOf st)) :
    x = treeOf st ∨ x = .lst [.mdl [] [] (.lst [.con st [0] true]) [] none] ∨ x = .mdl [] [] (.lst [.con st [0] true]) [] none ∨
      x = .lst [.con st [0] true] ∨ x = .con st [0] true := by
  simpa only [treeOf, Building.inside_mdl, Building.inside_lst, Building.inside_con, List.mem_cons, List.not_mem_nil, or_false, exists_eq_left] using h

theorem writes_treeOf {st st' : Stmt ℕ} (h : Building.Writes st' (treeOf st)) : st' = st := by
  obtain ⟨vks, t, h⟩ := h
  rcases inside_treeOf h with h | h | h | h | h <;> cases h
  rfl

theorem given_treeOf {st : Stmt ℕ} {k : ℕ} {w : ℝ} : ¬ GivenValue settingSE (treeOf st) k w := by
  rintro ((⟨arg, subs, h, hx⟩ | ⟨setup, cost, arg, subs, ret, h, hx⟩) | ⟨i, -, -, h⟩)
  · rcases inside_treeOf h with h | h | h | h | h <;> cases h
  · rcases inside_treeOf h with h | h | h | h | h <;> cases h <;> simp at hx
  · cases h

theorem eval_treeOf (st : Stmt ℕ) : Building.eval settingSE.world (treeOf st) settingSE.heap = .ok ((fun _ => none), .set ⟨[0], [], [st], 1⟩) := by
  simp [treeOf, settingSE, setting0, Building.eval, Building.evalL, Building.model, Building.costed, Building.construct, Building.Val.elements, Building.Val.truth,
    Building.defaults, Building.default1, Building.updated, Building.filled, Building.gathered, Building.partsL, Building.Val.parts,
    Building.update, Building.Part.vks, Building.Part.subs, Building.Part.cons, Building.addKeys, Building.addKey, Except.bind, Except.map]
  constructor
  · funext i
    simp [Building.taken]
  · simp [Building.taken]

/-- Without values the substitutions are empty. -/
theorem no_values {st : Stmt ℕ} {fixed : PyDict ℕ ℝ} (h : ∀ k w, fixed.get? k = some w → GivenValue settingSE (treeOf st) k w) : fixed = [] := by
  cases fixed with
  | nil => rfl
  | cons p l => exact (given_treeOf (h p.1 p.2 (by simp [PyDict.get?]))).elim

/-- The hypotheses about models are met by a model with one signomial inequality, with or without a posynomial inequality left of it. -/
theorem sigSound_treeOf {st : Stmt ℕ} {n : Nomial ℕ ℝ ℝ} (hn : st.single true (1 / 1000) (fun _ => .ok ()) (fun _ => none) = .ok (.sig n))
    (hun : ∀ l, (Single.sig n).become [] (fun h f => varlocs h f) = .ok l → ∀ c ∈ l, Unharmed c) : SigSound settingSE (.var 0) (treeOf st) where
  feastol := by norm_num [settingSE, setting0]
  ord := varlocs_valid
  units := fun v => by simp [settingSE, setting0, UnitOK, unitScale]
  isSet := trivial
  fair := by
    refine ⟨fun arg subs h => ?_, fun setup cost arg subs ret h => ?_⟩
    · rcases inside_treeOf h with h | h | h | h | h <;> cases h
    · rcases inside_treeOf h with h | h | h | h | h <;> cases h <;> exact ⟨trivial, .inr rfl⟩
  values := fun k w h => (given_treeOf h).elim
  cost := ⟨fun _ => 1, fun _ => one_pos, by simp [Expr.denote, physical, settingSE, setting0, unitScale]⟩
  gp := by
    intro st' c hw hc
    rw [writes_treeOf hw] at hc
    have hc' : st.single true (1 / 1000) (fun _ => .ok ()) (fun _ => none) = .ok (.con c) := hc
    rw [hn] at hc'
    cases hc'
  sigs := by
    intro st' n' hw hc fixed hfix l hl
    rw [writes_treeOf hw] at hc
    have hc' : st.single true (1 / 1000) (fun _ => .ok ()) (fun _ => none) = .ok (.sig n') := hc
    rw [hn] at hc'
    cases hc'
    rw [no_values hfix] at hl
    exact hun l hl

/-- The hypotheses of the theorems about `solve` are met by minimizing `x` subject to `1 - x <= 0`. -/
example : SigSound settingSE (.var 0) (treeOf sig0) ∧ ∃ r : Result ℕ, Written.solve settingSE (.var 0) (treeOf sig0) = .ok (r, true) := by
  refine ⟨sigSound_treeOf sig0_single ?_, ?_⟩
  · intro l hl c hc
    rw [sig0_become] at hl
    cases hl
    rw [List.mem_singleton] at hc
    subst hc
    intro e k _
    simp [NoClash]
  · obtain ⟨r, hr⟩ := one_le_x_solved (D := ℝ)
    refine ⟨r, ?_⟩
    unfold Written.solve solveOf
    rw [eval_treeOf]
    simp only [bind, Except.bind, theSet]
    have h1 : Written.single settingSE sig0 = .ok [.sig ⟨⟨[(⟨[(0, 1)]⟩, -1), (HV.empty, 1)], none⟩, .signomial⟩] := by
      unfold Written.single
      rw [show sig0.single (settingSE.enabled sig0) settingSE.feastol settingSE.approx settingSE.vunits = _ from sig0_single]
      rfl
    rw [List.mapM_cons, List.mapM_nil, h1]
    simp only [bind, Except.bind, pure, Except.pure, List.flatten_cons, List.flatten_nil, List.append_nil]
    rw [List.mapM_cons, List.mapM_nil, show Single.become [] settingSE.ord _ = _ from sig0_become]
    exact hr

/-- How `seqSetup` is solved. -/
noncomputable def localSE : Local ℕ String ℝ where
  setord := id
  slack := some 1
  penalty := 200
  optimize := fun _ _ => .ok seqOut
  eps := 1 / 1000000
  reltol := 1 / 10000
  lim := 1
  warns := true
  x0 := none

theorem sig1_setup : setupOf settingSE localSE (Written.single settingSE) ((Verif.Expr.var 0).build false settingSE.vunits) (treeOf sig1) = .ok seqSetup := by
  unfold setupOf
  rw [eval_treeOf]
  simp only [bind, Except.bind, theSet]
  have h1 : Written.single settingSE sig1 = .ok [.sig seqSig] := by
    unfold Written.single
    rw [show sig1.single (settingSE.enabled sig1) settingSE.feastol settingSE.approx settingSE.vunits = _ from sig1_single]
    rfl
  rw [List.mapM_cons, List.mapM_nil, h1]
  simp only [bind, Except.bind, pure, Except.pure, List.flatten_cons, List.flatten_nil, List.append_nil]
  have h2 : (Single.sig seqSig).sort [] settingSE.ord = .ok ([], [⟨seqSig, false⟩]) := by
    unfold Single.sort
    rw [show Single.become [] settingSE.ord _ = _ from sig1_become]
  rw [List.mapM_cons, List.mapM_nil, h2]
  rfl

/-- The hypotheses of the theorem about `localsolve` are met by minimizing `x` subject to `2 <= x + x**2`. -/
example : SigSound settingSE (.var 0) (treeOf sig1) ∧
    LocalOK settingSE localSE (Written.single settingSE) ((Verif.Expr.var 0).build false settingSE.vunits) (treeOf sig1) ∧
    OwnSlack settingSE localSE (.var 0) (treeOf sig1) ∧
    ∃ r : Result ℕ, Written.localsolve settingSE localSE (.var 0) (treeOf sig1) = .ok (r, true, false) := by
  refine ⟨sigSound_treeOf sig1_single ?_, ?_, ?_, ?_⟩
  · intro l hl
    rw [sig1_become] at hl
    cases hl
  · refine ⟨fun l => List.Perm.refl l, by norm_num [localSE], by simp [localSE], fun Z sp hZ hsp => ?_⟩
    rw [sig1_setup] at hZ
    cases hZ
    rw [seq_init] at hsp
    cases hsp
    refine ⟨seq_sigOK _, fun hn => by simp [seqSetup] at hn, fun _ _ _ _ _ => seq_sigOK _, fun n s' out hn h => ?_⟩
    have hn' : n ≤ 1 := hn
    obtain rfl | rfl : n = 0 ∨ n = 1 := by omega
    · have e := seq_pass0.symm.trans h
      cases e
      rfl
    · have e := seq_pass1.symm.trans h
      cases e
      rfl
  · intro v hv
    have : v = 1 := by simpa [localSE] using hv.symm
    subst this
    refine ⟨fun w => given_treeOf, by simp [Expr.vars], fun st hst => ?_⟩
    rw [writes_treeOf hst]
    simp [sig1, Expr.vars]
  · obtain ⟨r, hr⟩ := seq_localsolve
    refine ⟨r, ?_⟩
    unfold Written.localsolve localOf
    rw [sig1_setup]
    simp only [bind, Except.bind]
    rw [seq_init]
    exact hr

end Verif
