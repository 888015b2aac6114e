import Verif.Model.Model
import Verif.Model.Config
import Verif.Model.Engine
import Verif.Props.Config
import Verif.Props.System
import Verif.Props.Count
import Verif.Props.Model
import Verif.Model.Solver
import Verif.Props.Solver
import Verif.Proofs.Twin
import Verif.Proofs.Scale
import Verif.Props.Prims
import Verif.Props.Physics
import Verif.Props.Symmetry
import Verif.Props.Spectral
import Verif.Props.Utils
import Verif.Props.Fits
import Verif.Props.Grid
import Verif.Props.Free
import Verif.Props.Cache
import Verif.Props.Disk
import Verif.Props.Petsc
import Verif.Props.Heap
import Verif.Props.Exact
import Verif.Props.Operator
import Verif.Props.Limit
import Verif.Props.Atomic
import Verif.Props.ConfigND
import Verif.Props.RepoTests
import Verif.Props.Parameters
import Verif.Props.Stability
import Verif.Props.Floor
import Verif.Props.Edge
import Verif.Props.EdgeStatic
import Verif.Props.SelfEnergy
import Verif.Props.Cold
import Verif.Props.MomentumAverage
import Verif.Props.Signs
import Verif.Props.SecondOrder
import Verif.Props.Hopping
import Verif.Props.Diagnostics
import Verif.Props.Reports
import Verif.Props.Setters
import Verif.Props.Sumrules
import Verif.Props.Broadening
import Verif.Props.Residual
import Verif.Props.Logger
import Verif.Props.Crew
import Verif.Props.Stages
import Verif.Props.Meta
import Verif.Props.EquationsND
import Verif.Props.ErrorBar
import Verif.Props.Spread
import Verif.Props.Redundant
import Verif.Props.Window
import Verif.Props.DenseResidual
import Verif.Props.AbsExtent
import Verif.Props.Thermal
import Verif.Props.Measure
import Verif.Model.Json
import Verif.Spec.Json
import Verif.Proofs.Json
import Verif.Props.Json
import Verif.Spec.CacheAccuracy
import Verif.Props.CacheAccuracy
import Verif.Spec.OneDim
import Verif.Proofs.OneDim
import Verif.Props.OneDim
import Verif.Spec.Peak
import Verif.Proofs.Peak
import Verif.Props.Peak
import Verif.Model.Script
import Verif.Spec.Script
import Verif.Spec.Concave
import Verif.Proofs.Script
import Verif.Proofs.Concave
import Verif.Props.Script
import Verif.Props.SharedDisk
import Verif.Props.Interrupt
import Verif.Props.Inexact
import Verif.Props.Parallel
import Verif.Props.Ranks
import Verif.Props.Numbering
import Verif.Props.Tolerance
import Verif.Props.Size
import Verif.Props.Recompute
import Verif.Props.WeakCoupling
import Verif.Props.Padding
import Verif.Props.Binding
import Verif.Props.Concave
import Verif.Spec.Flat
import Verif.Proofs.Flat
import Verif.Props.Flat
import Verif.Model.Print
import Verif.Spec.Print
import Verif.Spec.Bottom
import Verif.Spec.Variational
import Verif.Proofs.Print
import Verif.Proofs.Bottom
import Verif.Proofs.Negative
import Verif.Proofs.Variational
import Verif.Proofs.LangFirsov
import Verif.Props.Print
import Verif.Props.Bottom
import Verif.Props.Negative
import Verif.Props.Variational
import Verif.Spec.CurveFit
import Verif.Props.CurveFit
import Verif.Model.TermJson
import Verif.Props.TermJson
import Verif.Model.Text
import Verif.Spec.Text
import Verif.Proofs.Text
import Verif.Props.Text
import Verif.Model.Float
import Verif.Spec.Rounding
import Verif.Proofs.Rounding
import Verif.Props.Rounding
import Verif.Model.FloatSolver
import Verif.Spec.Fpu
import Verif.Proofs.Fpu
import Verif.Props.Fpu
import Verif.Spec.Textbook
import Verif.Proofs.Textbook
import Verif.Props.Textbook
import Verif.Proofs.TextbookLimit
import Verif.Props.TextbookLimit
import Verif.Model.FloatDense
import Verif.Spec.FloatDense
import Verif.Proofs.FloatDense
import Verif.Props.FloatDense
import Verif.Spec.TextbookGround
import Verif.Proofs.TextbookGround
import Verif.Props.TextbookGround
import Verif.Spec.Couplings
import Verif.Proofs.Couplings
import Verif.Props.Couplings
import Verif.Props.EndToEnd
