import Verif.Props.Base64
import Verif.Props.Shuffle
import Verif.Props.Mapper
import Verif.Props.Partition
import Verif.Props.Adjacency
import Verif.Props.GhostSetup
import Verif.Props.Exchange
import Verif.Props.Reconstruct
import Verif.Props.Overset
import Verif.Props.Sections
import Verif.Props.Fields
import Verif.Props.Column
import Verif.Props.Simple
import Verif.Props.Euler
import Verif.Props.Exact
import Verif.Props.Eigen
import Verif.Props.RK
import Verif.Props.Frame
import Verif.Props.RotorHeap
import Verif.Props.Rotor
import Verif.Props.Lagrange
import Verif.Props.Taylor
import Verif.Props.Vincent
import Verif.Props.Ortho
import Verif.Props.Gauss
import Verif.Props.DirectDG
import Verif.Props.Intersect
import Verif.Props.Shape
import Verif.Props.Cell
import Verif.Props.SortNodes
import Verif.Props.Projection
import Verif.Props.Weno
import Verif.Props.WenoIndicator
import Verif.Props.Residual
import Verif.Props.Registration
import Verif.Props.FR
import Verif.Props.Vtk
import Verif.Props.Tables
import Verif.Props.LocalHex
import Verif.Props.Coordinates
import Verif.Props.Conform
import Verif.Props.Faces
import Verif.Props.WeakForm
import Verif.Props.Source
import Verif.Props.SourceTerm
import Verif.Props.Checkpoint
import Verif.Props.Viscosity
import Verif.Props.FaceParts
import Verif.Props.Parallel
import Verif.Props.Driver
import Verif.Props.Balance
import Verif.Props.PyRK
import Verif.Props.PyLoop
import Verif.Props.PyScalar
import Verif.Props.PyEuler
import Verif.Props.PyExact
import Verif.Props.PyPoly
import Verif.Props.PyQuad
import Verif.Props.PyExpansion
import Verif.Props.PyDG
import Verif.Props.PyEnergy
import Verif.Props.PyDiffusion
import Verif.Props.PyFR
import Verif.Props.PyFRDG
import Verif.Props.PyGrid
import Verif.Props.PyGauss
import Verif.Props.PyLimiter
import Verif.Props.PyLimiterCases
import Verif.Props.PyFilter
import Verif.Props.PyDetector
import Verif.Props.PyDetectorModes
import Verif.Props.PyDetectorSamples
import Verif.Props.PyDissipation
import Verif.Props.PyDissipationRate
import Verif.Props.PyLimiterFormula
import Verif.Props.PyViscosity
import Verif.Props.PyViscosityPersson
import Verif.Props.PyViscosityProfile
import Verif.Props.PyViscosityLinear
import Verif.Props.PyViscosityEnergy
import Verif.Props.PyReference
import Verif.Props.PyReferenceBurgers
import Verif.Props.PyReferenceErrors
import Verif.Props.PyWave
import Verif.Props.PyWaveStability
import Verif.Props.PyWaveModes
import Verif.Props.PyFRStable
import Verif.Props.PyWaveVincent
import Verif.Props.PyFirst
import Verif.Props.PyFirstStep
import Verif.Props.FRUniform
import Verif.Props.Energy
import Verif.Props.Volumes
import Verif.Props.Positive
import Verif.Props.Gas
import Verif.Props.Turn
import Verif.Props.Units
import Verif.Props.UnitsExact
import Verif.Props.Entropy
import Verif.Props.Carry
import Verif.Props.Measure
import Verif.Props.DoubleMach
import Verif.Props.Waves
import Verif.Props.PyEnergyRK
import Verif.Props.PyFRRK
import Verif.Props.MetisMesh
import Verif.Props.Boundary
import Verif.Props.PyMirror
import Verif.Props.PyMirrorFR
import Verif.Props.PyMirrorLimiter
import Verif.Props.PyMirrorLwa
import Verif.Props.PyMirrorDetector
import Verif.Props.PyMirrorViscosity
import Verif.Props.PyMirrorEnergy
import Verif.Props.PyMirrorPersson
