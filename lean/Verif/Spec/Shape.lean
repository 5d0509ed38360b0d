import Verif.Spec.Eval

/-! What it means for a nomial to be well formed: its class, its canonical form. -/

namespace Verif
variable {V K D : Type}

/-- The class of a nomial object is the one its coefficients call for. -/
def Nomial.ClassTrue [Zero K] [LT K] [LE K] (n : Nomial V K D) : Prop :=
  (n.cls = .monomial ↔ ∃ e c, n.hmap.terms = [(e, c)] ∧ 0 < c) ∧
  (n.cls = .signomial ↔ ∃ t ∈ n.hmap.terms, t.2 ≤ 0) ∧
  (n.cls = .posynomial ↔ (∀ t ∈ n.hmap.terms, 0 < t.2) ∧ n.hmap.terms.length ≠ 1)

/-- All coefficients are positive. -/
def Nomial.AllPos [Zero K] [LT K] (n : Nomial V K D) : Prop := ∀ t ∈ n.hmap.terms, 0 < t.2

/-- An exponent vector mentions each variable once and with a non-zero exponent. -/
def ExpCanonical [Zero K] (e : List (V × K)) : Prop :=
  (e.map (·.1)).Nodup ∧ ∀ kx ∈ e, kx.2 ≠ 0

/-- A list of terms is canonical: exponent vectors are canonical and pairwise different as mappings, coefficients are not zero. -/
def TermsCanonical [Zero K] (ts : List (HV V K × K)) : Prop :=
  (∀ t ∈ ts, ExpCanonical t.1.items ∧ t.2 ≠ 0) ∧
  ts.Pairwise (fun s t => ¬ s.1.items.Perm t.1.items)

/-- The same, but coefficients may be zero: exponent vectors are different as keys, and each is canonical. -/
def TermsTidy [DecidableEq V] [DecidableEq K] [Zero K] (ts : PyDict (HV V K) K) : Prop :=
  PyDict.WF ts ∧ ∀ t ∈ ts, ExpCanonical t.1.items

end Verif
