import Mathlib.Data.Real.Basic
import Verif.Model.PyDict
import Verif.Model.VarKey

/-!
# Sankey diagrams of sensitivities

Models `Sankey` (gpkit/interactive/sankey.py): the links made from a solution and a set of constraints, and which of them are shown. Colours, margins, files and the
widget itself are not modelled, nor are clicks.

Simplifications: sets hold other sets in a tree; a set is given with what `link` asks of it: whether it is a named model, and if so its name and those of its variables
(`unique_varkeys`, sorted) that are constants. Texts of constraints and variables are given. Every source has a node, so that looking it up cannot fail. Solutions are
not those of sweeps.
-/

namespace Verif
namespace Sankey
open VK

/-- Nodes are texts. -/
abbrev Id := Str

/-- `EPS` (gpkit/interactive/sankey.py 15). -/
noncomputable def eps : ℝ := 1 / 10 ^ 10

/-- `"%04i"`. -/
def pad4 (n : Nat) : Str := List.replicate (4 - (VK.num n).length) '0' ++ VK.num n

/-- `"%s.%04i" % (target, n)` (gpkit/interactive/sankey.py 55). -/
def child (t : Id) (n : Nat) : Id := t ++ '.' :: pad4 n

/-- The tag of a node; without one it is `None`. -/
inductive Tag where
  | constraint
  | subarray
  | plain
deriving DecidableEq

/-- `{"id": node, "title": title, tag: True}`. -/
structure Node where
  title : Str
  tag : Tag

/-- `links`, `links_to_target` and `nodes` (gpkit/interactive/sankey.py 48-50). -/
structure St where
  links : PyDict (Id × Id) ℝ
  count : PyDict Id Nat
  nodes : PyDict Id Node

/-- What they are in the beginning. -/
def St.empty : St := ⟨[], [], []⟩

/-- `links_to_target[t]`, which is zero by default. -/
def St.cnt (s : St) (t : Id) : Nat := (s.count.get? t).getD 0

/-- `links[k] += x`, zero being the default. -/
noncomputable def addTo (l : PyDict (Id × Id) ℝ) (k : Id × Id) (x : ℝ) : PyDict (Id × Id) ℝ := l.set k ((l.get? k).getD 0 + x)

/-- `add_node` (gpkit/interactive/sankey.py 52-57). -/
def St.addNode (s : St) (target : Id) (title : Str) (tag : Tag) : Id × St :=
  let n := s.cnt target + 1
  let node := child target n
  (node, { s with count := s.count.set target n, nodes := s.nodes.set node ⟨title, tag⟩ })

/-- `links[k] = x`. -/
def St.setLink (s : St) (k : Id × Id) (x : ℝ) : St := { s with links := s.links.set k x }

/-- `links[k] += x`. -/
noncomputable def St.addLink (s : St) (k : Id × Id) (x : ℝ) : St := { s with links := addTo s.links k x }

/-- The sensitivity to a constant: none, one that is not a number, or a number. -/
inductive Sens where
  | missing
  | nan
  | val (x : ℝ)

/-- A constant of a model: the vector it is an element of, whether all elements of this vector have one value, texts, and its sensitivity. -/
structure Fixed where
  vec : Option Str
  uniform : Bool
  vecTitle : Str
  title : Str
  sens : Sens

/-- `abs_var_sens` (gpkit/interactive/sankey.py 73-76). -/
noncomputable def Sens.value : Sens → ℝ
  | .missing => -|eps|
  | .nan => eps
  | .val x => -|x|

/-- The state of the loop of `linkfixed`: `fixedvecs` and `total_sens` besides. -/
structure Fst where
  st : St
  vecs : PyDict Str Id
  total : ℝ

/-- The node made for a vector whose elements have one value (gpkit/interactive/sankey.py 66-72). -/
def vecNode (target : Id) (f : Fixed) (a : Fst) : Fst :=
  match f.vec with
  | none => a
  | some v =>
    if (a.vecs.get? v).isNone ∧ f.uniform then
      let n := a.st.addNode target f.vecTitle .constraint
      { a with st := n.2, vecs := a.vecs.set v n.1 }
    else a

/-- A round of the loop of `linkfixed` (gpkit/interactive/sankey.py 63-88). -/
noncomputable def fixStep (target : Id) (a : Fst) (f : Fixed) : Fst :=
  let b := vecNode target f a
  let x := f.sens.value
  match f.vec.bind b.vecs.get? with
  | some vt =>
    let n := b.st.addNode vt f.title .subarray
    { b with st := (n.2.setLink (n.1, vt) x).addLink (vt, target) x, total := b.total + x }
  | none =>
    let n := b.st.addNode target f.title .constraint
    { b with st := n.2.setLink (n.1, target) x, total := b.total + x }

/-- `linkfixed` (gpkit/interactive/sankey.py 59-89). -/
noncomputable def linkFixed (target : Id) (fs : List Fixed) (s : St) : St × ℝ :=
  let a := fs.foldl (fixStep target) ⟨s, [], 0⟩
  (a.st, a.total)

/-- What a diagram is made of: constraints, arrays of them with their text, and sets given as lists or with keys; the latter two may be named models with constants
(gpkit/interactive/sankey.py 17-20). -/
inductive CSet (C : Type) where
  | con (c : C)
  | arr (title : Str) (cs : List (CSet C))
  | lst (model : Option (Str × List Fixed)) (cs : List (CSet C))
  | dct (model : Option (Str × List Fixed)) (cs : List (Str × CSet C))

/-- What is asked of solution and constraints: `sensitivities["constraints"]`, `v_ss`, whether a variable is among `varkeys`, and the text. -/
structure Sol (C V : Type) where
  csenss : C → Option ℝ
  vss : C → Option (V → Option ℝ)
  mentions : C → V → Bool
  text : C → Str

variable {C V : Type}

/-- `total_sens` of a constraint (gpkit/interactive/sankey.py 120-128). -/
noncomputable def leaf (S : Sol C V) (var : Option V) (c : C) : ℝ :=
  match var with
  | none =>
    match S.csenss c with
    | some x => if -|x| = 0 then -eps else -|x|
    | none => 0
  | some v =>
    match S.vss c with
    | none => if S.mentions c v then eps else 0
    | some d =>
      match d v with
      | some x => if x = 0 then eps else x
      | none => 0

/-- `cstr if len(cstr) <= 30 else "%s ..." % cstr[:30]`. -/
def short (s : Str) : Str := if s.length ≤ 30 then s else s.take 30 ++ " ...".toList

/-- Where links of a named model go, and those of its constants (gpkit/interactive/sankey.py 96-101): target, target before, state and total. -/
noncomputable def enter (labeled top : Bool) (isVar : Bool) (model : Option (Str × List Fixed)) (target : Id) (s : St) : Id × Option Id × St × ℝ :=
  match model with
  | none => (target, none, s, 0)
  | some m =>
    if labeled then (target, none, s, 0)
    else
      let n := if top then (target, s) else s.addNode target m.1 .plain
      let old := if top then none else some target
      let r := if isVar then (n.2, 0) else linkFixed n.1 m.2 n.2
      (n.1, old, r.1, r.2)

/-- `if switchedtarget: …` (gpkit/interactive/sankey.py 135-136). -/
noncomputable def leave (target : Id) (old : Option Id) (s : St) (total : ℝ) : St × ℝ :=
  match old with
  | none => (s, total)
  | some o => (s.addLink (target, o) total, total)

mutual
/-- `link` (gpkit/interactive/sankey.py 92-137). `top` says whether this is the set the diagram is made for. -/
noncomputable def link (S : Sol C V) (var : Option V) (labeled subarray top : Bool) (target : Id) (s : St) : CSet C → St × ℝ
  | .con c =>
    let x := leaf S var c
    if labeled then (s, x)
    else
      let n := s.addNode target (short (S.text c)) (if subarray then .subarray else .constraint)
      (n.2.setLink (n.1, target) x, x)
  | .arr title cs =>
    if 1 < cs.length then
      let n := s.addNode target (short title) .constraint
      let r := linkL S var true n.1 n.2 cs
      leave n.1 (some target) r.1 r.2
    else linkL S var subarray target s cs
  | .lst model cs =>
    let e := enter labeled top var.isSome model target s
    let r := linkL S var subarray e.1 e.2.2.1 cs
    leave e.1 e.2.1 r.1 (e.2.2.2 + r.2)
  | .dct model cs =>
    let e := enter labeled top var.isSome model target s
    let r := linkD S var e.1 e.2.2.1 cs
    leave e.1 e.2.1 r.1 (e.2.2.2 + r.2)
/-- The loop over a list (gpkit/interactive/sankey.py 117-119). -/
noncomputable def linkL (S : Sol C V) (var : Option V) (subarray : Bool) (target : Id) (s : St) : List (CSet C) → St × ℝ
  | [] => (s, 0)
  | c :: cs =>
    let r := link S var false subarray false target s c
    let q := linkL S var subarray target r.1 cs
    (q.1, r.2 + q.2)
/-- The loop over a dict (gpkit/interactive/sankey.py 111-116). -/
noncomputable def linkD (S : Sol C V) (var : Option V) (target : Id) (s : St) : List (Str × CSet C) → St × ℝ
  | [] => (s, 0)
  | (k, c) :: cs =>
    let n := s.addNode target k .plain
    let r := link S var true false false n.1 n.2 c
    let q := linkD S var target (r.1.addLink (n.1, target) r.2) cs
    (q.1, r.2 + q.2)
end

/-- The links and nodes made by `diagram` without a variable (gpkit/interactive/sankey.py 171-174). -/
noncomputable def diagram (S : Sol C V) (label : Str) (cset : CSet C) (s : St) : St :=
  (link S none false false true label { s with nodes := s.nodes.set label ⟨label, .plain⟩ } cset).1

/-- The node for the cost, if the variable is in it (gpkit/interactive/sankey.py 167-170). -/
noncomputable def costNode (varlabel : Str) (cost : Option ℝ) (s : St) : St :=
  match cost with
  | none => s
  | some x =>
    let n := s.addNode varlabel "[cost function]".toList .plain
    n.2.setLink (n.1, varlabel) x

/-- The links and nodes made by `diagram` for a variable (gpkit/interactive/sankey.py 160-177). -/
noncomputable def diagramOf (S : Sol C V) (label : Str) (v : V) (varlabel : Str) (cost : Option ℝ) (cset : CSet C) (s : St) : St :=
  let n := ({ s with nodes := s.nodes.set varlabel ⟨varlabel, .plain⟩ } : St).addNode varlabel label .plain
  let r := link S (some v) false false true n.1 (costNode varlabel cost n.2) cset
  r.1.setLink (n.1, varlabel) r.2

/-- `filter` (gpkit/interactive/sankey.py 139-144). -/
def filterLinks (maxlinks : Nat) (forced : Bool) (f : (Id × Id) × ℝ → Bool) (l : PyDict (Id × Id) ℝ) : PyDict (Id × Id) ℝ :=
  if maxlinks < l.length || forced then l.filter f else l

/-- Whether a node has a tag. -/
def St.tagged (s : St) (n : Id) (t : Tag) : Bool :=
  match s.nodes.get? n with
  | some d => d.tag == t
  | none => false

/-- The loop that removes links by depth (gpkit/interactive/sankey.py 219-221); `mindepth` is 1. -/
def cull (maxlinks : Nat) : Nat → PyDict (Id × Id) ℝ → PyDict (Id × Id) ℝ
  | 0, l => l
  | d + 1, l =>
    if maxlinks < l.length ∧ 1 < d + 1 then cull maxlinks d (filterLinks maxlinks false (fun e => e.1.1.count '.' < d + 1) l) else l

/-- `culldepth` at first (gpkit/interactive/sankey.py 217). Where it would be negative nothing is removed either. -/
def St.depth (s : St) : Nat := (s.nodes.map (fun e => e.1.count '.')).foldr max 0 - 1

/-- The links that are shown (gpkit/interactive/sankey.py 199-223), no node being chosen. -/
noncomputable def shown (minsenss : ℝ) (maxlinks : Nat) (showconstraints : Bool) (s : St) : PyDict (Id × Id) ℝ :=
  let l := filterLinks maxlinks true (fun e => decide (minsenss < |e.2|)) s.links
  let l := if showconstraints then l
    else filterLinks maxlinks true (fun e => !s.tagged e.1.1 .constraint && !s.tagged e.1.1 .subarray) l
  let l := filterLinks maxlinks false (fun e => !s.tagged e.1.1 .subarray) l
  let l := filterLinks maxlinks false (fun e => !s.tagged e.1.1 .constraint || decide (1 / 100 < |e.2|)) l
  let l := cull maxlinks s.depth l
  filterLinks maxlinks false (fun e => !s.tagged e.1.1 .constraint) l

end Sankey
end Verif
