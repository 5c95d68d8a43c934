import Verif.Props.Fdmath
import Verif.Props.FdtdRun
import Verif.Props.FdtdEnergy
import Verif.Props.FdtdStability
import Verif.Props.FdtdBoundaries
import Verif.Props.FdtdPmlParams
import Verif.Props.FdtdPml
import Verif.Props.CpmlSteady
import Verif.Props.FdtdMisc
import Verif.Props.FdfdOperators
import Verif.Props.FdfdWaves
import Verif.Props.FdfdPoynting
import Verif.Props.FdfdSolvers
import Verif.Props.FdfdScpml
import Verif.Props.Waveguide2d
import Verif.Props.Waveguide2dModes
import Verif.Props.Waveguide2dSens
import Verif.Props.Eigensolvers
import Verif.Props.WgModes
import Verif.Props.WaveguideCyl
import Verif.Props.WaveguideCylModes
import Verif.Props.Waveguide3d
import Verif.Props.Waveguide3dModes
import Verif.Props.Waveguide3dExamples
import Verif.Props.Eme
import Verif.Props.Bloch
import Verif.Props.BlochOverlap
import Verif.Props.BlochSolve
import Verif.Props.BlochInit
import Verif.Props.Farfield
import Verif.Props.FdfdSystem
import Verif.Props.GridInvariance
import Verif.Props.GaussianBeam
import Verif.Props.BlochMu
import Verif.Props.Symmetry
import Verif.Props.FdtdSharp
import Verif.Props.FarfieldPower
import Verif.Props.Waveguide3dSolve
import Verif.Props.Waveguide2dPower
import Verif.Props.InPlace
import Verif.Props.ModeReversal
import Verif.Props.FdfdGradient
import Verif.Props.Consistency
import Verif.Props.Convergence
import Verif.Props.FdfdConvergence
import Verif.Props.FdtdRegion
import Verif.Props.FdfdConjugate
import Verif.Props.BlochReversal
import Verif.Props.BlochInvariance
import Verif.Props.BlochMonotone
import Verif.Props.BlochVelocity
import Verif.Props.EmeReciprocity
import Verif.Props.FdtdTransform
import Verif.Props.FdtdReciprocity
import Verif.Props.NumericalDispersion
import Verif.Props.RayleighQuotient
import Verif.Props.EmeUnitary
import Verif.Props.CpmlTransform
import Verif.Props.ModeExistence
import Verif.Props.GroupVelocityBound
import Verif.Props.ModeSymmetry
import Verif.Lemmas.Pencil
import Verif.Props.Resonances
import Verif.Props.Ringing
import Verif.Props.BoundaryImage
import Verif.Props.BlochGuess
import Verif.Props.Overlap
import Verif.Props.BlochGradient
import Verif.Props.BlochConjugate
import Verif.Props.ResonanceConvergence
import Verif.Props.ModeConvergence
import Verif.Props.HomogeneousSpectrum
import Verif.Props.GradedGrid
import Verif.Props.GradedConvergence
import Verif.Props.GradedFdfd
import Verif.Props.WgKeywords
import Verif.Props.Waveguide2dSensLossy
import Verif.Props.Lorentz
import Verif.Props.Perturbation
import Verif.Props.BlochPerturb
import Verif.Props.EmePhase
import Verif.Props.Rounding
import Verif.Props.PulseSpectra
import Verif.Props.BendMedium
import Verif.Props.FdtdGradient
import Verif.Props.Driven
import Verif.Lemmas.LossyRing
import Verif.Props.CpmlLossy
import Verif.Props.ScpmlLossy
import Verif.Props.Scattering
import Verif.Props.Interface
import Verif.Props.Duality
import Verif.Props.Static
import Verif.Props.Cage
import Verif.Props.MagicStep
import Verif.Props.StretchedMedia
import Verif.Model.Typed
import Verif.Props.Typed
import Verif.Props.ScpmlWave
import Verif.Props.ScpmlOpen
import Verif.Props.ScpmlOblique
import Verif.Props.EmeAbcdCall
import Verif.Props.PySlices
import Verif.Props.SolverResidual
import Verif.Props.Supercell
import Verif.Props.BandFolding
import Verif.Props.BandLipschitz
import Verif.Props.Conditioning
import Verif.Props.Stack
import Verif.Props.BlochLimit
import Verif.Props.BandConvergence
import Verif.Props.BandLimits
import Verif.Props.ModeDispersion
import Verif.Props.ObliqueStack
import Verif.Props.ComplexFrequency
import Verif.Props.SymmetryPlane
import Verif.Lemmas.SpectralFlow
import Verif.Props.ModeCount
import Verif.Props.Bragg
import Verif.Props.DeviceScattering
import Verif.Props.BendCount
import Verif.Props.ModeBranch
import Verif.Props.ResonanceBranch
import Verif.Props.BandBranch
import Verif.Props.FarfieldSymmetry
import Verif.Props.ModeCompleteness
import Verif.Props.PortAmplitudes
import Verif.Props.DeviceScatteringMatrix
import Verif.Props.DeviceCascade
import Verif.Props.DevicePower
import Verif.Props.Sparsity
import Verif.Props.PowerBasis
import Verif.Props.SpectralEnergy
import Verif.Model.Shapes
import Verif.Props.Shapes
import Verif.Props.EmeComplete
