import Verif.Props.Heap
import Verif.Props.Likelihood
import Verif.Props.Cache
import Verif.Props.Prior
import Verif.Props.MH
import Verif.Props.Clusters
import Verif.Props.Source
import Verif.Props.Effects
import Verif.Props.MCMC
import Verif.Props.Init
import Verif.Props.Run
import Verif.Props.Log
import Verif.Props.Data
import Verif.Props.Tools
import Verif.Props.Config
import Verif.Props.Util
import Verif.Props.Simulation
import Verif.Props.Posterior
import Verif.Props.Membership
import Verif.Props.Chain
import Verif.Props.Logged
import Verif.Props.Postproc
import Verif.Props.PlotMap
import Verif.Props.PlotTable
import Verif.Props.Contrib
import Verif.Props.OpStats
import Verif.Props.CrashLog
import Verif.Props.Sampler
import Verif.Props.Reach
import Verif.Props.Ergodic
import Verif.Props.LLN
import Verif.Props.Validate
import Verif.Props.Build
import Verif.Props.Start
import Verif.Props.NoSource
import Verif.Props.StartAlter
import Verif.Props.Modes
import Verif.Props.FromPrior
import Verif.Props.EndToEnd
import Verif.Props.Parallel
import Verif.Props.Generators
import Verif.Props.Polygon
import Verif.Props.PlotMain
import Verif.Props.WholeMap
import Verif.Props.Reorder
import Verif.Props.SimRun
import Verif.Props.SimConfig
import Verif.Props.Rounding
import Verif.Props.RoundingDraw
import Verif.Props.Double
import Verif.Props.DoubleStep
import Verif.Props.DoubleGrow
import Verif.Props.Settings
import Verif.Props.MissingCost
import Verif.Props.Accept
import Verif.Props.ConvertPrior
import Verif.Props.SetupLog
import Verif.Props.LikelihoodFile
import Verif.Props.Template
import Verif.Props.PlotConfig
import Verif.Props.StrongLaw
import Verif.Props.Labels
import Verif.Props.Sizes
import Verif.Props.Areas
import Verif.Props.Quadratic
import Verif.Props.FreeParams
import Verif.Props.FullPrior
