import Verif.Props.Stats
import Verif.Props.Estimators
import Verif.Props.Kwargs
import Verif.Props.ControlLs
import Verif.Props.ControlVariates
import Verif.Props.Interval
import Verif.Props.Hutchpp
import Verif.Props.Xtrace
import Verif.Props.Chunk
import Verif.Props.Diagonal
import Verif.Props.Lanczos
import Verif.Props.MatrixFunctionWitness
import Verif.Props.Ritz
import Verif.Props.Tridiag
import Verif.Props.Isotropic
import Verif.Props.RandomMat
import Verif.Props.Special
import Verif.Props.Toeplitz
import Verif.Props.Operators
import Verif.Props.LanczosPy
import Verif.Props.SLQ
import Verif.Props.OrthVector
import Verif.Props.Dispatch
import Verif.Props.Plotting
import Verif.Props.Alias
import Verif.Props.NativeOps
import Verif.Props.LanczosBase
import Verif.Props.MatFunOp
import Verif.Props.Variance
import Verif.Props.XtraceMoments
import Verif.Props.LanczosFlat
import Verif.Props.Messages
import Verif.Props.HutchppFl
import Verif.Props.HutchppFull
import Verif.Props.QuadError
import Verif.Props.SLQError
import Verif.Props.StatsFl
import Verif.Props.CovFl
import Verif.Spec.Interlace
import Verif.Lemmas.Interlace
import Verif.Lemmas.StatsFlId
import Verif.Props.Interlace
import Verif.Props.XdiagMoments
import Verif.Props.Tail
import Verif.Model.FunAttr
import Verif.Props.FunAttr
import Verif.Spec.Prob
import Verif.Lemmas.Gauss
import Verif.Props.Prob
import Verif.Props.HutchppProb
import Verif.Model.Record
import Verif.Props.Record
import Verif.Model.Seed
import Verif.Props.Seed
import Verif.Model.HutchFl
import Verif.Props.HutchFl
import Verif.Lemmas.GaussIndep
import Verif.Lemmas.GaussPi
import Verif.Lemmas.RangeFinder
import Verif.Lemmas.ColProj
import Verif.Props.XtraceProb
import Verif.Props.HutchppGauss
import Verif.Props.HutchppRate
import Verif.Lemmas.GaussRot
import Verif.Props.SphereVar
import Verif.Props.DiagProb
import Verif.Lemmas.Perturb
import Verif.Lemmas.EarlyStop
import Verif.Props.EarlyStop
import Verif.Props.EarlyStopWitness
import Verif.Props.SLQNear
import Verif.Lemmas.Approx
import Verif.Props.Rates
import Verif.Props.Adaptive
import Verif.Spec.Quantile
import Verif.Lemmas.Asymp
import Verif.Lemmas.IsoIid
import Verif.Lemmas.HutchRun
import Verif.Lemmas.Quantile
import Verif.Lemmas.Student
import Verif.Lemmas.Exists
import Verif.Lemmas.Term
import Verif.Lemmas.StudentMono
import Verif.Props.Asymptotics
import Verif.Props.Coverage
import Verif.Lemmas.Anscombe
import Verif.Props.Sequential
import Verif.Model.LanczosFl
import Verif.Lemmas.LanczosFlRun
import Verif.Lemmas.LanczosFlStep
import Verif.Lemmas.Paige
import Verif.Lemmas.PaigeInterval
import Verif.Lemmas.LanczosIeee
import Verif.Props.LanczosFl
import Verif.Lemmas.Sylvester
import Verif.Lemmas.ChebCoeff
import Verif.Lemmas.QuadFl
import Verif.Lemmas.QuadCheb
import Verif.Lemmas.QuadPad
import Verif.Model.QuadFl
import Verif.Spec.QuadFl
import Verif.Props.QuadFl
import Verif.Lemmas.LanczosFlOrth
import Verif.Lemmas.OrthPass
import Verif.Lemmas.FullOrth
import Verif.Lemmas.FullOrthRun
import Verif.Lemmas.OrthIeee
import Verif.Lemmas.QuadFlCore
import Verif.Props.LanczosFlOrth
import Verif.Props.QuadFlOrth
import Verif.Lemmas.JacForm
import Verif.Lemmas.QuadIeee
import Verif.Model.SlqFl
import Verif.Spec.SlqFl
import Verif.Lemmas.SlqFl
import Verif.Props.SlqFl
import Verif.Props.FunFl
import Verif.Lemmas.EarlyFl
import Verif.Props.EarlyFl
import Verif.Model.TqliFl
import Verif.Spec.TqliFl
import Verif.Lemmas.TqliFl
import Verif.Lemmas.TqliFlRows
import Verif.Lemmas.RoundP
import Verif.Props.RandomFl
import Verif.Props.TrinvFl
import Verif.Props.TqliFl
import Verif.Model.DiagFl
import Verif.Props.DiagFl
import Verif.Model.ToeplitzFl
import Verif.Props.ToeplitzFl
import Verif.Model.HutchSpecial
import Verif.Props.HutchSpecial
import Verif.Props.HutchSpecialRun
import Verif.Props.HutchSpecialFin
import Verif.Model.DiagSpecial
import Verif.Props.DiagSpecial
import Verif.Props.DiagSpecialFin
import Verif.Model.MatFunSpecial
import Verif.Lemmas.EarlyNodes
import Verif.Props.MatFunSpecial
import Verif.Props.MatFunSpecialRun
import Verif.Lemmas.IidRows
import Verif.Props.ControlProb
import Verif.Lemmas.LooVar
import Verif.Props.XtraceVar
import Verif.Model.CritFl
import Verif.Lemmas.CritFl
import Verif.Props.CritFl
import Verif.Model.SpecialFl
import Verif.Lemmas.SpecialFl
import Verif.Props.SpecialFl
import Verif.Model.RandomMatFl
import Verif.Props.RandomMatFl
import Verif.Model.NormalizeFl
import Verif.Props.NormalizeFl
import Verif.Model.KneeFl
import Verif.Lemmas.KneeFl
import Verif.Props.KneeFl
import Verif.Model.FttrFl
import Verif.Props.FttrFl
import Verif.Model.ControlFl
import Verif.Props.ControlFl
import Verif.Model.KneeLoopFl
import Verif.Props.KneeLoopFl
import Verif.Model.CritRecFl
import Verif.Props.CritRecFl
import Verif.Model.SlqCritFl
import Verif.Props.SlqCritFl
