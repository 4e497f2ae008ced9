import Verif.Spec.Aggregate
import Verif.Spec.Approximation
import Verif.Spec.Args
import Verif.Spec.Chain
import Verif.Spec.Files
import Verif.Spec.Graph
import Verif.Spec.Growth
import Verif.Spec.Hidden
import Verif.Spec.Lump
import Verif.Spec.Order
import Verif.Spec.Passage
import Verif.Spec.Paths
import Verif.Spec.Plots
import Verif.Spec.Rate
import Verif.Spec.Serial
import Verif.Spec.Spectral
import Verif.Spec.Tests
import Verif.Spec.Valid
import Verif.Model.Aggregate
import Verif.Model.Approximation
import Verif.Model.Assessments
import Verif.Model.Cached
import Verif.Model.Checked
import Verif.Model.Construct
import Verif.Model.DataLabels
import Verif.Model.Derived
import Verif.Model.Description
import Verif.Model.Descriptors
import Verif.Model.Divergence
import Verif.Model.Entropy
import Verif.Model.FileErrors
import Verif.Model.FilePaths
import Verif.Model.Fitting
import Verif.Model.Generators
import Verif.Model.GraphIO
import Verif.Model.Hidden
import Verif.Model.HiddenGen
import Verif.Model.Linalg
import Verif.Model.Measures
import Verif.Model.Messages
import Verif.Model.ModelArguments
import Verif.Model.Numeric
import Verif.Model.Objects
import Verif.Model.Periods
import Verif.Model.Plotting
import Verif.Model.PyVal
import Verif.Model.Random
import Verif.Model.Reversible
import Verif.Model.Rounded
import Verif.Model.RoundedBackward
import Verif.Model.RoundedBirth
import Verif.Model.RoundedChecks
import Verif.Model.RoundedDirichlet
import Verif.Model.RoundedEntropy
import Verif.Model.RoundedFitting
import Verif.Model.RoundedGenerators
import Verif.Model.RoundedHitting
import Verif.Model.RoundedMixing
import Verif.Model.RoundedPassage
import Verif.Model.RoundedPopulation
import Verif.Model.RoundedRandom
import Verif.Model.RoundedReversible
import Verif.Model.RoundedRouwenhorst
import Verif.Model.RoundedSensitivity
import Verif.Model.RoundedSequence
import Verif.Model.RoundedSimulation
import Verif.Model.RoundedSolve
import Verif.Model.RoundedTauchen
import Verif.Model.RoundedTimes
import Verif.Model.RoundedVisits
import Verif.Model.Seeds
import Verif.Model.Serial
import Verif.Model.Simulation
import Verif.Model.Spectral
import Verif.Model.Stationary
import Verif.Model.Structure
import Verif.Model.Times
import Verif.Model.Validation
import Verif.Model.Validation2
import Verif.Model.Visits
import Verif.Lemmas.Binary64
import Verif.Lemmas.Cast
import Verif.Lemmas.Chain
import Verif.Lemmas.Double
import Verif.Lemmas.Generators
import Verif.Lemmas.Graph
import Verif.Lemmas.Growth
import Verif.Lemmas.Harmonic
import Verif.Lemmas.Integration
import Verif.Lemmas.Ladder
import Verif.Lemmas.Law
import Verif.Lemmas.Legendre
import Verif.Lemmas.LegendreRoots
import Verif.Lemmas.LegendreRule
import Verif.Lemmas.LongRun
import Verif.Lemmas.Near
import Verif.Lemmas.PassageLimits
import Verif.Lemmas.Periods
import Verif.Lemmas.Primitive
import Verif.Lemmas.Rates
import Verif.Lemmas.Serial
import Verif.Lemmas.Spectral
import Verif.Lemmas.Stationary
import Verif.Lemmas.Text
import Verif.Lemmas.Validation
import Verif.Lemmas.Visits
import Verif.Props.Absorbing
import Verif.Props.Absorption
import Verif.Props.AcceptedCalls
import Verif.Props.AcceptedHidden
import Verif.Props.Accessibility
import Verif.Props.AddaCooper
import Verif.Props.Aggregate
import Verif.Props.Agreement
import Verif.Props.Arguments
import Verif.Props.Assessments
import Verif.Props.BaumWelch
import Verif.Props.Cached
import Verif.Props.CachedAlways
import Verif.Props.CachedFinish
import Verif.Props.Canonical
import Verif.Props.CheckedSimulation
import Verif.Props.Classes
import Verif.Props.Cyclic
import Verif.Props.DataLabels
import Verif.Props.Decode
import Verif.Props.DecodeSimulated
import Verif.Props.Description
import Verif.Props.Descriptors
import Verif.Props.Dictionary
import Verif.Props.Divergence
import Verif.Props.Entropy
import Verif.Props.Equipartition
import Verif.Props.Ergodic
import Verif.Props.ErrorKinds
import Verif.Props.FileContents
import Verif.Props.FileErrors
import Verif.Props.FilePaths
import Verif.Props.Files
import Verif.Props.Fitting
import Verif.Props.FlowPlot
import Verif.Props.GaussLegendre
import Verif.Props.Generators
import Verif.Props.GraphIO
import Verif.Props.GraphPlot
import Verif.Props.Growth
import Verif.Props.HiddenAgreement
import Verif.Props.HiddenConsistency
import Verif.Props.HiddenEstimate
import Verif.Props.HiddenFit
import Verif.Props.HiddenGen
import Verif.Props.HiddenModel
import Verif.Props.HiddenSimulation
import Verif.Props.HiddenTruncation
import Verif.Props.Hitting
import Verif.Props.Identity
import Verif.Props.KemenySpectrum
import Verif.Props.Lazy
import Verif.Props.LongRun
import Verif.Props.Lump
import Verif.Props.Lumped
import Verif.Props.Merged
import Verif.Props.Messages
import Verif.Props.Mixing
import Verif.Props.ModelArguments
import Verif.Props.ModelPlots
import Verif.Props.Monotone
import Verif.Props.NthOrder
import Verif.Props.Objects
import Verif.Props.OrderTest
import Verif.Props.Passage
import Verif.Props.PathFit
import Verif.Props.Periods
import Verif.Props.PiDouble
import Verif.Props.PiReturns
import Verif.Props.PredictedPaths
import Verif.Props.Quadrature
import Verif.Props.QuadratureDegree
import Verif.Props.Random
import Verif.Props.RandomDistribution
import Verif.Props.RandomTarget
import Verif.Props.Rate
import Verif.Props.RawArguments
import Verif.Props.Rdl
import Verif.Props.RecurrenceDouble
import Verif.Props.ReducibleLimit
import Verif.Props.ReducibleLongRun
import Verif.Props.Regular
import Verif.Props.Relabel
import Verif.Props.Reversible
import Verif.Props.Rewards
import Verif.Props.RoundedBackward
import Verif.Props.RoundedBirth
import Verif.Props.RoundedChains
import Verif.Props.RoundedChecks
import Verif.Props.RoundedDecode
import Verif.Props.RoundedDirichlet
import Verif.Props.RoundedEntropy
import Verif.Props.RoundedFitting
import Verif.Props.RoundedGenerators
import Verif.Props.RoundedHitting
import Verif.Props.RoundedLump
import Verif.Props.RoundedMeasures
import Verif.Props.RoundedMixing
import Verif.Props.RoundedPassage
import Verif.Props.RoundedPopulation
import Verif.Props.RoundedRandom
import Verif.Props.RoundedReversible
import Verif.Props.RoundedRouwenhorst
import Verif.Props.RoundedSensitivity
import Verif.Props.RoundedSequence
import Verif.Props.RoundedSimulation
import Verif.Props.RoundedSolve
import Verif.Props.RoundedTauchen
import Verif.Props.RoundedTests
import Verif.Props.RoundedTimes
import Verif.Props.RoundedVisits
import Verif.Props.Rounding
import Verif.Props.Rouwenhorst
import Verif.Props.RouwenhorstPowers
import Verif.Props.RuleNames
import Verif.Props.Seeds
import Verif.Props.Sensitivity
import Verif.Props.SequencePlot
import Verif.Props.Sharing
import Verif.Props.SimulatedPassage
import Verif.Props.SimulatedValues
import Verif.Props.Simulation
import Verif.Props.SimulationLaw
import Verif.Props.Smoothing
import Verif.Props.Spectral
import Verif.Props.Stationary
import Verif.Props.SubMeasures
import Verif.Props.Subchain
import Verif.Props.Tauchen
import Verif.Props.TauchenHussey
import Verif.Props.TestPower
import Verif.Props.Textbook
import Verif.Props.Times
import Verif.Props.Transform
import Verif.Props.TransitionFunction
import Verif.Props.TrellisPlot
import Verif.Props.Truncation
import Verif.Props.Underflow
import Verif.Props.Urn
import Verif.Props.Validation
import Verif.Props.Visits
import Verif.Props.Viterbi
