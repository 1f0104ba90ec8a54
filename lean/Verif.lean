import Verif.Props.Kinematics
import Verif.Props.Theory
import Verif.Props.Limits
import Verif.Props.Boost
import Verif.Props.Interp
import Verif.Props.PairwiseSum
import Verif.Props.BoostTable
import Verif.Props.Rambo
import Verif.Props.PhaseSpace
import Verif.Props.ThreeBody
import Verif.Props.SpectraBoost
import Verif.Props.MuonSpectra
import Verif.Props.PhotonMuon
import Verif.Props.PionSpectra
import Verif.Props.AltarelliParisi
import Verif.Props.ScalarModel
import Verif.Props.VectorModel
import Verif.Props.Fsr
import Verif.Props.CrossSections
import Verif.Props.SChannel
import Verif.Props.VectorXs
import Verif.Props.XsUnits
import Verif.Props.Elastic
import Verif.Props.Equilibrium
import Verif.Props.RelicDensity
import Verif.Props.Aliasing
import Verif.Props.SingleChannel
import Verif.Props.NBody
import Verif.Props.NBodyOutcome
import Verif.Props.MediatorDecay
import Verif.Props.MediatorPositron
import Verif.Props.Constrain
import Verif.Props.ScalarConstraints
import Verif.Props.Ckm
import Verif.Props.Cmb
import Verif.Props.Dispatch
import Verif.Props.Kronrod
import Verif.Props.Quad
import Verif.Props.QuadPoints
import Verif.Props.RhWidths
import Verif.Props.RhNeutrino
import Verif.Props.RhTree
import Verif.Props.GevCache
import Verif.Props.GevXs
import Verif.Props.VectorThree
import Verif.Props.Resonance
import Verif.Props.MesonFF
import Verif.Props.GevSpectra
import Verif.Props.Detector
import Verif.Props.Fisher
import Verif.Props.RelicLimit
import Verif.Props.Pbh
import Verif.Props.QuadLevels
import Verif.Props.RhFlavour
import Verif.Props.PhotonTables
import Verif.Props.Special
import Verif.Props.BoostFn
import Verif.Props.SoftComplex
import Verif.Props.LeptonTables
import Verif.Props.FsrGenerator
import Verif.Props.ElasticXs
import Verif.Props.FourPion
import Verif.Props.MesonThree
import Verif.Props.RamboEstimate
import Verif.Props.VectorPi0PiPi
import Verif.Props.MediatorSpectra
import Verif.Props.PhaseApi
import Verif.Props.CythonKernels
import Verif.Props.ThermalTotal
import Verif.Props.LimitsApi
import Verif.Props.EndToEnd
import Verif.Props.Resonances
import Verif.Props.SelfScattering
import Verif.Props.FeynmanRules
import Verif.Props.Radiation
import Verif.Props.WeakDecays
import Verif.Props.MuonDecay
import Verif.Props.SelfSigma
import Verif.Props.Constants
import Verif.Props.Details
import Verif.Props.ElasticFeynman
import Verif.Props.Compton
import Verif.Props.Anomaly
import Verif.Props.ScalarFeynman
import Verif.Props.GevFeynman
import Verif.Props.ThreeNeutrinos
import Verif.Props.PionRadiative
import Verif.Props.ThermalAverage
import Verif.Props.Collinear
import Verif.Props.RamboUnbiased
import Verif.Props.PhaseSpaceMeasure
import Verif.Props.RamboStatistics
import Verif.Props.RamboConvergence
import Verif.Props.PhaseSpaceDensity
import Verif.Props.MediatorWeights
import Verif.Props.GevRegistry
import Verif.Props.FinalStates
import Verif.Props.BoostLorentz
import Verif.Props.SolidAngle
import Verif.Props.DecayChain
import Verif.Props.SoftChain
import Verif.Props.RamboNewton
import Verif.Props.RamboAccuracy
import Verif.Props.RamboMassive
import Verif.Props.FisherAccuracy
import Verif.Props.MediatorRest
import Verif.Props.RhTwoPion
import Verif.Props.RhSmallMass
import Verif.Props.MediatorLines
import Verif.Props.ExpectAccuracy
import Verif.Props.LimitsEdge
import Verif.Props.FormFactorUnits
import Verif.Props.TwoBodyUnits
import Verif.Props.MediatorElastic
