import Verif.Props.Filter
import Verif.Props.Admm
import Verif.Props.AdmmOptimality
import Verif.Props.AdmmConvergence
import Verif.Props.AdmmHistory
import Verif.Props.BoxAdmm
import Verif.Props.BoxAdmmRefines
import Verif.Props.QuasiNewton
import Verif.Props.Ruiz
import Verif.Props.Sqp
import Verif.Props.SqpTheory
import Verif.Props.PolyMath
import Verif.Props.Legendre
import Verif.Props.Chebyshev
import Verif.Props.LegendreScheme
import Verif.Props.Splines
import Verif.Props.AutoDiff
import Verif.Props.Mpc
import Verif.Props.Lqr
import Verif.Props.LqrGain
import Verif.Props.Ocp
import Verif.Props.OcpCost
import Verif.Props.OcpSource
import Verif.Props.OcpSparse
import Verif.Props.OcpSparseHess
import Verif.Props.OcpSparseBfgs
import Verif.Props.Quaternions
import Verif.Props.RungeKutta
import Verif.Props.CasadiMath
import Verif.Props.Ipopt
import Verif.Props.Nlp
import Verif.Props.AdmmSparse
import Verif.Props.AdmmSparseReuse
import Verif.Props.BoxAdmmSparse
import Verif.Props.Osqp
import Verif.Props.Qpmad
import Verif.Props.CasCheb
import Verif.Props.GenericOcp
import Verif.Props.GenericOcpDiff
import Verif.Props.GenericOcpSoft
import Verif.Props.GenericOcpObj
import Verif.Props.GenericOcpEx
import Verif.Props.Nmpc
import Verif.Props.NmpcIvp
import Verif.Props.NmpcScale
import Verif.Props.NmpcObj
import Verif.Props.NmpcUse
import Verif.Props.Nmpf
import Verif.Props.NmpfScale
import Verif.Props.NmpfObj
import Verif.Props.NmpfUse
import Verif.Props.NmpfQuery
import Verif.Props.PsOde
import Verif.Props.PsOdeIvp
import Verif.Props.PsOdeUse
import Verif.Props.Psarc
import Verif.Props.IsPsd
import Verif.Props.SqpQuadratic
import Verif.Props.MpcSqp
import Verif.Props.MpcLinear
import Verif.Props.QpExistence
import Verif.Props.QpInfeasible
import Verif.Props.MpcWarm
import Verif.Props.Storage
import Verif.Props.StorageAd
import Verif.Props.SqpLocal
import Verif.Props.SqpMaratos
import Verif.Props.LqrStable
import Verif.Props.LqrGuess
import Verif.Props.LqrDouble
import Verif.Props.SqpSparse
import Verif.Props.SqpSparseStall
import Verif.Props.Gershgorin
import Verif.Props.PsOdeAccuracy
import Verif.Props.MpcAccuracy
import Verif.Props.SqpGlobal
import Verif.Props.AdmmCycle
import Verif.Props.AdmmAdaptive
import Verif.Props.AdmmBound
import Verif.Props.QpAccuracy
import Verif.Props.SqpQpFails
import Verif.Props.SqpInexact
import Verif.Props.Galerkin
import Verif.Props.PolymathColumns
import Verif.Props.BoxAdmmAdaptive
import Verif.Props.BoxAdmmCycle
import Verif.Props.AdmmRounded
import Verif.Props.BoxAdmmRounded
import Verif.Props.SqpAffine
import Verif.Props.SqpCost
import Verif.Props.MpcCost
import Verif.Props.SqpRounded
import Verif.Props.QPInf
import Verif.Props.SqpInf
import Verif.Props.SqpFilter
import Verif.Props.BoxAdmmHistory
import Verif.Props.SqpHistory
import Verif.Props.MpcInf
import Verif.Props.Mirror
import Verif.Props.OldColloc
import Verif.Props.OldCost
import Verif.Props.OldSparse
import Verif.Props.ChebDiag
import Verif.Props.SolverOpts
import Verif.Props.SparseSession
import Verif.Props.RuizRounded
import Verif.Props.RuizQuality
import Verif.Props.Plants
import Verif.Props.LegendreOcp
import Verif.Props.GradProj
import Verif.Props.LqrConverge
import Verif.Props.TrustRegion
import Verif.Props.MpcRest
import Verif.Props.SqpSettings
import Verif.Props.MpcTime
import Verif.Props.OdeOptions
import Verif.Props.QpSettings
import Verif.Props.BfgsRounded
import Verif.Props.IpoptUse
import Verif.Props.Sr1Rounded
import Verif.Props.TimeGridRounded
import Verif.Props.FilterNan
import Verif.Props.SqpNan
import Verif.Props.AdmmNan
