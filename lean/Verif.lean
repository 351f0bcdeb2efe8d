import Verif.Props.Index
import Verif.Props.Geometry
import Verif.Props.Buffer
import Verif.Props.ViewSet
import Verif.Props.Methods
import Verif.Props.Mac
import Verif.Props.Exec
import Verif.Props.Distro
import Verif.Props.Array
import Verif.Props.Hilbert
import Verif.Props.Grid
import Verif.Props.Build
import Verif.Props.Branch
import Verif.Props.Exchange
import Verif.Props.Dag
import Verif.Props.Com
import Verif.Props.Coeff
import Verif.Props.Ndebug
import Verif.Props.Laplace
import Verif.Props.LapFmm
import Verif.Props.Plane
import Verif.Props.EndToEnd
import Verif.Props.RankTree
import Verif.Props.Arrive
import Verif.Props.ReadBack
import Verif.Props.Life
import Verif.Props.Bessel
import Verif.Props.Yukawa
import Verif.Props.Kernels
import Verif.Props.Helmholtz
import Verif.Props.ArrayLife
import Verif.Props.Waves
import Verif.Props.TreeLife
import Verif.Props.Route
import Verif.Props.ExpMem
import Verif.Props.ExpRun
import Verif.Props.ComExec
import Verif.Props.Session
import Verif.Props.YukShift
import Verif.Props.YukExec
import Verif.Props.Weights
import Verif.Props.YukPlane
import Verif.Props.YukFmm
import Verif.Props.HelmShift
import Verif.Props.DirectExec
import Verif.Props.HelmPlane
import Verif.Props.HelmFmm
import Verif.Props.Gamma
import Verif.Props.PrintEdges
import Verif.Props.RankLocal
import Verif.Props.Trace
import Verif.Props.TraceCover
import Verif.Props.TraceZero
import Verif.Props.TraceDb
import Verif.Props.TraceFile
import Verif.Props.TraceKeys
import Verif.Props.TracePlot
import Verif.Props.Stepping
import Verif.Props.Combine
import Verif.Props.Collect
import Verif.Props.Demo
import Verif.Props.GaussQ
import Verif.Props.GaussExact
import Verif.Props.DemoRun
import Verif.Props.StepRun
import Verif.Props.UserRun
