import Verif.Props.Arithmetic
import Verif.Props.Substitution
import Verif.Props.Calculus
import Verif.Props.Units
import Verif.Props.Hash
import Verif.Props.Approx
import Verif.Props.Inequality
import Verif.Props.Program
import Verif.Props.Optimality
import Verif.Props.Cvxopt
import Verif.Props.Bounds
import Verif.Props.CSet
import Verif.Props.SGP
import Verif.Props.KeyDict
import Verif.Props.KeyDictCopy
import Verif.Props.ParseSubs
import Verif.Props.Sweep
import Verif.Props.Autosweep
import Verif.Props.AutoBounds
import Verif.Props.DictOfLists
import Verif.Props.Relax
import Verif.Props.RelaxConst
import Verif.Props.RelaxSubs
import Verif.Props.Globals
import Verif.Model.VarKey
import Verif.Props.VarKey
import Verif.Model.Solve
import Verif.Props.Solve
import Verif.Model.SolSave
import Verif.Props.SolSave
import Verif.Model.Tools
import Verif.Props.Tools
import Verif.Model.Array
import Verif.Lemmas.Positive
import Verif.Props.Array
import Verif.Model.Warnings
import Verif.Spec.Warnings
import Verif.Props.Warnings
import Verif.Model.Sens
import Verif.Props.Sens
import Verif.Props.CostSens
import Verif.Spec.Share
import Verif.Spec.SolverForm
import Verif.Model.SolveHistory
import Verif.Lemmas.Share
import Verif.Lemmas.ShareMap
import Verif.Props.Share
import Verif.Props.SensDual
import Verif.Model.SigSens
import Verif.Spec.SigForm
import Verif.Lemmas.Track
import Verif.Lemmas.SigSens
import Verif.Props.SigSens
import Verif.Props.SigMeaning
import Verif.Model.Guess
import Verif.Spec.Guess
import Verif.Props.Guess
import Verif.Props.Mosek
import Verif.Props.Docstring
import Verif.Props.Printing
import Verif.Props.MosekCli
import Verif.Props.Lookup
import Verif.Props.SolCall
import Verif.Props.Pipeline
import Verif.Props.Vector
import Verif.Props.Sequential
import Verif.Props.Table
import Verif.Props.Csv
import Verif.Props.Solvify
import Verif.Props.ConstrTable
import Verif.Props.MonoEq
import Verif.Props.Debug
import Verif.Props.Oracle
import Verif.Props.Building
import Verif.Model.Compare
import Verif.Spec.Written
import Verif.Model.Written
import Verif.Props.Written
import Verif.Lemmas.Tidy
import Verif.Spec.Elementwise
import Verif.Model.Elementwise
import Verif.Lemmas.Elementwise
import Verif.Props.Elementwise
import Verif.Spec.SigWritten
import Verif.Model.SigWritten
import Verif.Lemmas.Size
import Verif.Lemmas.Lacks
import Verif.Lemmas.Every
import Verif.Lemmas.Nonneg
import Verif.Lemmas.Zeros
import Verif.Props.SigWritten
import Verif.Model.Diff
import Verif.Spec.Diff
import Verif.Props.Diff
import Verif.Model.Shadow
import Verif.Lemmas.Shadow
import Verif.Props.Shadow
import Verif.Model.SubCall
import Verif.Spec.SubCall
import Verif.Lemmas.SubCall
import Verif.Props.SubCall
import Verif.Model.Names
import Verif.Spec.Names
import Verif.Lemmas.Names
import Verif.Props.Names
import Verif.Spec.Shadow
import Verif.Model.ModelSens
import Verif.Spec.ModelSens
import Verif.Props.ModelSens
import Verif.Model.Process
import Verif.Spec.Process
import Verif.Lemmas.Process
import Verif.Props.Process
import Verif.Model.Outline
import Verif.Spec.Outline
import Verif.Lemmas.Outline
import Verif.Props.Outline
import Verif.Model.WarnTable
import Verif.Spec.WarnTable
import Verif.Lemmas.WarnTable
import Verif.Props.WarnTable
import Verif.Model.Notes
import Verif.Spec.Notes
import Verif.Lemmas.Notes
import Verif.Props.Notes
import Verif.Model.Splice
import Verif.Spec.Splice
import Verif.Props.Splice
import Verif.Model.Settings
import Verif.Props.Settings
import Verif.Model.SigEq
import Verif.Spec.SigEq
import Verif.Lemmas.SigEq
import Verif.Props.SigEq
import Verif.Model.AutosweepGP
import Verif.Spec.AutosweepGP
import Verif.Props.AutosweepGP
import Verif.Model.Latex
import Verif.Spec.Latex
import Verif.Lemmas.Latex
import Verif.Props.Latex
import Verif.Model.EqWritten
import Verif.Props.EqWritten
import Verif.Model.Sankey
import Verif.Spec.Sankey
import Verif.Lemmas.Sankey
import Verif.Props.Sankey
import Verif.Model.Insens
import Verif.Props.Insens
import Verif.Model.Sliders
import Verif.Spec.Sliders
import Verif.Lemmas.Sliders
import Verif.Props.Sliders
import Verif.Model.LatexNames
import Verif.Spec.LatexNames
import Verif.Props.LatexNames
import Verif.Model.Quantities
import Verif.Spec.Quantities
import Verif.Props.Quantities
import Verif.Model.AutoArray
import Verif.Props.AutoArray
import Verif.Model.SweepArray
import Verif.Props.SweepArray
import Verif.Model.BadElement
import Verif.Spec.BadElement
import Verif.Props.BadElement
import Verif.Model.ShowVars
import Verif.Spec.ShowVars
import Verif.Props.ShowVars
