import Verif.Lemmas.Cholesky
import Verif.Lemmas.GaussInt
import Verif.Lemmas.GaussPost
import Verif.Lemmas.KMax
import Verif.Lemmas.Linear
import Verif.Lemmas.LmeOracle
import Verif.Lemmas.LmeProblem
import Verif.Lemmas.LmeSelect
import Verif.Lemmas.QuadForm
import Verif.Lemmas.RankOne
import Verif.Lemmas.Scalar
import Verif.Lemmas.Solver
import Verif.Lemmas.SolverMap
import Verif.Lemmas.SolverOffset
import Verif.Lemmas.SolverQuiet
import Verif.Lemmas.SolverShift
import Verif.Lemmas.Vector
import Verif.Model.Basic
import Verif.Model.Ctor
import Verif.Model.Floats
import Verif.Model.LinClasses
import Verif.Model.LinOracleObj
import Verif.Model.LinSession
import Verif.Model.Linear
import Verif.Model.LmeCache
import Verif.Model.LmeClasses
import Verif.Model.LmeExtra
import Verif.Model.LmeFrame
import Verif.Model.LmeGenArgs
import Verif.Model.LmeIp
import Verif.Model.LmeIpLog
import Verif.Model.LmeJoint
import Verif.Model.LmeMap
import Verif.Model.LmeModels
import Verif.Model.LmeOracle
import Verif.Model.LmeProblem
import Verif.Model.LmeSelect
import Verif.Model.LmeSession
import Verif.Model.LmeSplit
import Verif.Model.Logger
import Verif.Model.PriorShapes
import Verif.Model.Priors
import Verif.Model.Regularizers
import Verif.Model.Solvers
import Verif.Props.Converge
import Verif.Props.Ctor
import Verif.Props.Descent
import Verif.Props.Duplicates
import Verif.Props.Exact
import Verif.Props.FloatExact
import Verif.Props.FloatFit
import Verif.Props.FloatFormats
import Verif.Props.FloatProx
import Verif.Props.FloatProxExact
import Verif.Props.Floats
import Verif.Props.FreshObject
import Verif.Props.L0Lme
import Verif.Props.LinAgree
import Verif.Props.LinBudget
import Verif.Props.LinClasses
import Verif.Props.LinColumns
import Verif.Props.LinConverge
import Verif.Props.LinElZero
import Verif.Props.LinExtra
import Verif.Props.LinFixed
import Verif.Props.LinFolded
import Verif.Props.LinFrame
import Verif.Props.LinL0
import Verif.Props.LinModels
import Verif.Props.LinNonconvex
import Verif.Props.LinOracleObj
import Verif.Props.LinPath
import Verif.Props.LinRate
import Verif.Props.LinRelax
import Verif.Props.LinReorder
import Verif.Props.LinResid
import Verif.Props.LinSession
import Verif.Props.LinShift
import Verif.Props.LinSr3Stat
import Verif.Props.LinStat
import Verif.Props.LinSuff
import Verif.Props.LinSupport
import Verif.Props.LinTails
import Verif.Props.LinUnits
import Verif.Props.LinZeroCol
import Verif.Props.LinZeroColSr3
import Verif.Props.Linear
import Verif.Props.LmeAic
import Verif.Props.LmeBarrier
import Verif.Props.LmeBlup
import Verif.Props.LmeCache
import Verif.Props.LmeCadDescent
import Verif.Props.LmeClasses
import Verif.Props.LmeColumns
import Verif.Props.LmeCond
import Verif.Props.LmeConsistent
import Verif.Props.LmeConstraints
import Verif.Props.LmeConverge
import Verif.Props.LmeConvex
import Verif.Props.LmeCopies
import Verif.Props.LmeCounts
import Verif.Props.LmeCov
import Verif.Props.LmeCurv
import Verif.Props.LmeDefault
import Verif.Props.LmeDescent
import Verif.Props.LmeEm
import Verif.Props.LmeEnvelope
import Verif.Props.LmeExists
import Verif.Props.LmeFisher
import Verif.Props.LmeFit
import Verif.Props.LmeFitTotal
import Verif.Props.LmeFlip
import Verif.Props.LmeFrame
import Verif.Props.LmeGamma
import Verif.Props.LmeGammaSolve
import Verif.Props.LmeGenArgs
import Verif.Props.LmeGenDensity
import Verif.Props.LmeGenFit
import Verif.Props.LmeGenLaw
import Verif.Props.LmeGenNames
import Verif.Props.LmeGenTable
import Verif.Props.LmeGenerate
import Verif.Props.LmeGetIc
import Verif.Props.LmeGrid
import Verif.Props.LmeHat
import Verif.Props.LmeHenderson
import Verif.Props.LmeHess
import Verif.Props.LmeIc
import Verif.Props.LmeIcMono
import Verif.Props.LmeIdentified
import Verif.Props.LmeIntegral
import Verif.Props.LmeIntercept
import Verif.Props.LmeIp
import Verif.Props.LmeIpEx
import Verif.Props.LmeIpFolded
import Verif.Props.LmeIpLog
import Verif.Props.LmeIpStop
import Verif.Props.LmeJoint
import Verif.Props.LmeKkt
import Verif.Props.LmeKktScad
import Verif.Props.LmeL0Descent
import Verif.Props.LmeL0Stop
import Verif.Props.LmeLast
import Verif.Props.LmeLogged
import Verif.Props.LmeLoss
import Verif.Props.LmeMap
import Verif.Props.LmeNewton
import Verif.Props.LmeOnes
import Verif.Props.LmePgd
import Verif.Props.LmePosterior
import Verif.Props.LmePractical
import Verif.Props.LmePrecision
import Verif.Props.LmePredict
import Verif.Props.LmeProblem
import Verif.Props.LmePull
import Verif.Props.LmeReorder
import Verif.Props.LmeRepeat
import Verif.Props.LmeRoundTrip
import Verif.Props.LmeScaleVar
import Verif.Props.LmeSelect
import Verif.Props.LmeSession
import Verif.Props.LmeShared
import Verif.Props.LmeShift
import Verif.Props.LmeShrink
import Verif.Props.LmeSplit
import Verif.Props.LmeSplitHalf
import Verif.Props.LmeSr3Cov
import Verif.Props.LmeSr3Folded
import Verif.Props.LmeSr3Last
import Verif.Props.LmeSr3Near
import Verif.Props.LmeSr3Stop
import Verif.Props.LmeStack
import Verif.Props.LmeSuff
import Verif.Props.LmeTighten
import Verif.Props.LmeTrade
import Verif.Props.LmeTrap
import Verif.Props.LmeTurn
import Verif.Props.LmeTurnFit
import Verif.Props.LmeTurnTable
import Verif.Props.LmeUnits
import Verif.Props.LmeValue
import Verif.Props.LmeWarm
import Verif.Props.LmeZeroCol
import Verif.Props.LmeZeroVar
import Verif.Props.Logger
import Verif.Props.Logging
import Verif.Props.LoggingEx
import Verif.Props.PriorShapes
import Verif.Props.Priors
import Verif.Props.RegExact
import Verif.Props.RegOrder
import Verif.Props.RegStrength
import Verif.Props.RegVarOrder
import Verif.Props.Regularizers
import Verif.Props.Resume
import Verif.Props.ResumeFits
import Verif.Props.Sharp
import Verif.Props.Sharp2
import Verif.Props.Sharp3
import Verif.Props.Solver
import Verif.Props.SolverLog
import Verif.Props.Sr3Solver
import Verif.Props.Tightened
import Verif.Props.Tighter
import Verif.Props.TighterFits
import Verif.Props.Wrappers
import Verif.Spec.Arrays
import Verif.Spec.Lme
import Verif.Spec.LmeModel
import Verif.Spec.Prior
import Verif.Spec.Prox
import Verif.Spec.RegTree
import Verif.Spec.Solver
