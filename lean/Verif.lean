import Verif.Model.Angles
import Verif.Model.Arora
import Verif.Model.Arrays
import Verif.Model.Assertions
import Verif.Model.Avanzini
import Verif.Model.Battin
import Verif.Model.Brent
import Verif.Model.Catalogue
import Verif.Model.Delatorre
import Verif.Model.Der
import Verif.Model.Elements
import Verif.Model.Gauss
import Verif.Model.Gooding
import Verif.Model.Izzo
import Verif.Model.Jiang
import Verif.Model.Kepler
import Verif.Model.McElreath
import Verif.Model.Negrete
import Verif.Model.Output
import Verif.Model.Pan
import Verif.Model.Py
import Verif.Model.PyC
import Verif.Model.Report
import Verif.Model.Rounded
import Verif.Model.RoundedLoops
import Verif.Model.RoundedSeries
import Verif.Model.Stumpff
import Verif.Model.Thorne
import Verif.Model.ThorneSeries
import Verif.Model.V3
import Verif.Model.Vallado
import Verif.Proofs.Absorb
import Verif.Proofs.AgreeLemmas
import Verif.Proofs.AngleLemmas
import Verif.Proofs.AnomalyLemmas
import Verif.Proofs.Arc
import Verif.Proofs.AroraLemmas
import Verif.Proofs.AroraSeries
import Verif.Proofs.AroraStart
import Verif.Proofs.ArrivalUnique
import Verif.Proofs.AssertLemmas
import Verif.Proofs.AvanziniLemmas
import Verif.Proofs.BattinLemmas
import Verif.Proofs.BattinTime
import Verif.Proofs.ConicMotion
import Verif.Proofs.ConicPath
import Verif.Proofs.Conserved
import Verif.Proofs.Core
import Verif.Proofs.DelatorreLemmas
import Verif.Proofs.DerLemmas
import Verif.Proofs.ElementsLemmas
import Verif.Proofs.GoodingDomain
import Verif.Proofs.GoodingLemmas
import Verif.Proofs.GoodingLimits
import Verif.Proofs.GoodingMulti
import Verif.Proofs.GoodingMultiSlow
import Verif.Proofs.GoodingRun
import Verif.Proofs.GoodingStart
import Verif.Proofs.GoodingWell
import Verif.Proofs.Hyp2F1
import Verif.Proofs.IzzoDeriv
import Verif.Proofs.IzzoDomain
import Verif.Proofs.IzzoFast
import Verif.Proofs.IzzoHalley
import Verif.Proofs.IzzoLemmas
import Verif.Proofs.IzzoMultiSlow
import Verif.Proofs.IzzoRun
import Verif.Proofs.IzzoSlow
import Verif.Proofs.JiangLemmas
import Verif.Proofs.KeplerUnique
import Verif.Proofs.LagrangeTime
import Verif.Proofs.LancSeries
import Verif.Proofs.LeviCivita
import Verif.Proofs.McElreathLemmas
import Verif.Proofs.McElreathRun
import Verif.Proofs.McElreathSlow
import Verif.Proofs.MeanAnomaly
import Verif.Proofs.MeanTime
import Verif.Proofs.MultiRev
import Verif.Proofs.NegreteLemmas
import Verif.Proofs.NegreteUniform
import Verif.Proofs.NegreteUnivalent
import Verif.Proofs.Order
import Verif.Proofs.OrderLaguerre
import Verif.Proofs.PForm
import Verif.Proofs.PSeries
import Verif.Proofs.PanLemmas
import Verif.Proofs.Path
import Verif.Proofs.PathConverse
import Verif.Proofs.PathTime
import Verif.Proofs.PolarForm
import Verif.Proofs.PyLemmas
import Verif.Proofs.Radial
import Verif.Proofs.RiemannSum
import Verif.Proofs.RoundTrip
import Verif.Proofs.SecantOrder
import Verif.Proofs.SimpleRoot
import Verif.Proofs.StumpffComplex
import Verif.Proofs.StumpffCont
import Verif.Proofs.StumpffLemmas
import Verif.Proofs.ThirdDeriv
import Verif.Proofs.ThorneGeo
import Verif.Proofs.ThorneLemmas
import Verif.Proofs.TimeMono
import Verif.Proofs.UVTime
import Verif.Proofs.ValladoLemmas
import Verif.Props.Accuracy
import Verif.Props.Aligned
import Verif.Props.Angles
import Verif.Props.Anomalies
import Verif.Props.Arora
import Verif.Props.AroraDeriv
import Verif.Props.AroraGuess
import Verif.Props.AroraMore
import Verif.Props.AroraMultiSolves
import Verif.Props.AroraSolves
import Verif.Props.AroraSwitch
import Verif.Props.AroraSwitchAll
import Verif.Props.Avanzini
import Verif.Props.AvanziniAccuracy
import Verif.Props.AvanziniDefined
import Verif.Props.AvanziniEquator
import Verif.Props.AvanziniFast
import Verif.Props.AvanziniMore
import Verif.Props.AvanziniOutcome
import Verif.Props.AvanziniRoots
import Verif.Props.AvanziniSolves
import Verif.Props.Battin
import Verif.Props.BattinWrong
import Verif.Props.Binary64
import Verif.Props.Brackets
import Verif.Props.Budget
import Verif.Props.Catalogue
import Verif.Props.CharacteristicTimes
import Verif.Props.Delatorre
import Verif.Props.DelatorreDerivative
import Verif.Props.DelatorreMore
import Verif.Props.DelatorreMulti
import Verif.Props.DelatorreSearch
import Verif.Props.Der
import Verif.Props.DerDeriv
import Verif.Props.DerDivZero
import Verif.Props.DerMinimum
import Verif.Props.DerSolves
import Verif.Props.Elements
import Verif.Props.Gauss
import Verif.Props.GaussShort
import Verif.Props.Gooding
import Verif.Props.GoodingMore
import Verif.Props.GoodingMulti
import Verif.Props.GoodingMultiSlow
import Verif.Props.GoodingMultiSolves
import Verif.Props.GoodingSolves
import Verif.Props.Izzo
import Verif.Props.IzzoFeasible
import Verif.Props.IzzoInvalid
import Verif.Props.IzzoMinimum
import Verif.Props.IzzoMultiSlow
import Verif.Props.IzzoSlow
import Verif.Props.IzzoSolves
import Verif.Props.IzzoTime
import Verif.Props.Jiang
import Verif.Props.JiangFast
import Verif.Props.JiangMore
import Verif.Props.LowPath
import Verif.Props.LowPathExamples
import Verif.Props.LowPathMore
import Verif.Props.Maxiter
import Verif.Props.MaxiterMore
import Verif.Props.McElreath
import Verif.Props.McElreathMore
import Verif.Props.McElreathSolves
import Verif.Props.MultiRev
import Verif.Props.MultiRevStable
import Verif.Props.Negrete
import Verif.Props.NegreteAntipodal
import Verif.Props.NegreteConverges
import Verif.Props.NegreteMore
import Verif.Props.NegreteTwoPoles
import Verif.Props.OneOrbit
import Verif.Props.Order
import Verif.Props.OrderArora
import Verif.Props.OrderAvanzini
import Verif.Props.OrderDer
import Verif.Props.OrderGooding
import Verif.Props.OrderLoops
import Verif.Props.OrderMcElreath
import Verif.Props.Pan
import Verif.Props.PanOrbit
import Verif.Props.PanReach
import Verif.Props.PanReversal
import Verif.Props.PanWrong
import Verif.Props.PathFlag
import Verif.Props.PathFlagMore
import Verif.Props.ReportMain
import Verif.Props.ReportReadme
import Verif.Props.ReportTables
import Verif.Props.Reversal
import Verif.Props.ReversalArora
import Verif.Props.ReversalAroraFalse
import Verif.Props.ReversalAroraRev
import Verif.Props.ReversalAvanzini
import Verif.Props.ReversalAvanziniEquator
import Verif.Props.ReversalAvanziniFull
import Verif.Props.ReversalMore
import Verif.Props.Rotation
import Verif.Props.RotationAvanzini
import Verif.Props.RoundedLoops
import Verif.Props.RoundedSeries
import Verif.Props.RoundedStumpff
import Verif.Props.Rounding
import Verif.Props.Stumpff
import Verif.Props.Symmetry
import Verif.Props.SymmetryMore
import Verif.Props.Thorne
import Verif.Props.ThorneA
import Verif.Props.ThorneSeries
import Verif.Props.ThorneSolves
import Verif.Props.Unique
import Verif.Props.Units
import Verif.Props.Validation
import Verif.Props.Vallado
import Verif.Props.ValladoFast
import Verif.Props.ValladoMore
import Verif.Spec.Geometry
import Verif.Spec.Radial
import Verif.Spec.TwoBody
