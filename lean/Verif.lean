import Verif.Props.Rational
import Verif.Props.Combinatorics
import Verif.Props.Registry
import Verif.Props.Orders
import Verif.Props.Canon
import Verif.Props.Algebra
import Verif.Props.OpAlgebra
import Verif.Props.NormalOrder
import Verif.Props.ExprOps
import Verif.Props.CanonTerm
import Verif.Props.Wick
import Verif.Props.WickCount
import Verif.Props.WickThreads
import Verif.Props.WickLinear
import Verif.Props.WickGraph
import Verif.Props.OpProduct
import Verif.Props.OpMake
import Verif.Props.GenOp
import Verif.Props.Boson
import Verif.Props.WickSum
import Verif.Props.WickProduct
import Verif.Props.Manybody
import Verif.Props.Einsum
import Verif.Props.MakeOp
import Verif.Props.Parse
import Verif.Props.EinsumSem
import Verif.Props.ManybodyValue
import Verif.Props.Session
import Verif.Props.CanonForm
import Verif.Props.VnoSum
import Verif.Props.AmbitSem
import Verif.Props.PyEinsum
import Verif.Props.MaxCumulant
import Verif.Props.Linked
import Verif.Props.Latex
import Verif.Props.Extend
import Verif.Props.WickGeneral
import Verif.Props.BchEnd
import Verif.Props.ContractCanon
import Verif.Props.AdjContract
import Verif.Props.Print
import Verif.Props.PrintEq
import Verif.Props.DiagOp
import Verif.Props.Program
import Verif.Props.Introspect
import Verif.Props.Build
import Verif.Props.Antisym
import Verif.Props.PyFunction
import Verif.Props.Amplitudes
import Verif.Props.Projection
import Verif.Props.CoupledCluster
import Verif.Props.SpinResidual
import Verif.Props.ExactCC
import Verif.Props.Symmetry
import Verif.Props.ExprProduct
import Verif.Props.Engines
import Verif.Props.Conserve
import Verif.Props.Relabel
import Verif.Props.SpaceOrder
import Verif.Props.GenOpValue
import Verif.Props.Determinant
import Verif.Props.DivideThree
import Verif.Props.SpinExample
import Verif.Props.SameResidual
import Verif.Props.TermSize
import Verif.Props.ProgramRuns
import Verif.Props.Notebook
import Verif.Props.SpinNotebook
import Verif.Props.MP2
import Verif.Props.Timers
import Verif.Props.NotebookKeys
import Verif.Props.CCNotebook
import Verif.Props.SpinKeys
import Verif.Props.Equations
import Verif.Props.CCEquations
import Verif.Props.CCExact
import Verif.Props.CCComplete
import Verif.Props.AmbitProgram
import Verif.Props.PyProgram
