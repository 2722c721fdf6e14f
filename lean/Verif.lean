import Verif.Props.Scattering
import Verif.Props.Lattice
import Verif.Props.Expansion
import Verif.Props.Brillouin
import Verif.Props.Fourier
import Verif.Props.Fmm
import Verif.Props.Fields
import Verif.Props.Energy
import Verif.Props.Fields3d
import Verif.Props.SourcePower
import Verif.Props.SourcePowerAbsorbing
import Verif.Props.SourceAbsorption
import Verif.Props.SourceShapes
import Verif.Props.Sources
import Verif.Props.Shapes
import Verif.Props.Pml
import Verif.Props.Utils
import Verif.Props.Pytree
import Verif.Props.Radiation
import Verif.Props.Beams
import Verif.Props.Vector
import Verif.Props.TangentField
import Verif.Props.Farfield
import Verif.Props.Validation
import Verif.Props.Profile
import Verif.Props.AutoGrid
import Verif.Props.VectorBatch
import Verif.Props.VectorEnergy
import Verif.Props.Symmetry
import Verif.Props.Reciprocity
import Verif.Props.FftAxes
import Verif.Props.Thickness
import Verif.Props.Coordinates3d
import Verif.Props.TwoSided
import Verif.Props.Supercell
import Verif.Props.Fresnel
import Verif.Props.Gratings
import Verif.Props.AbsorbingSlab
import Verif.Props.Absorption
import Verif.Props.BatchSolve
import Verif.Props.Emission
import Verif.Props.Superposition
import Verif.Props.SupercellEmission
import Verif.Props.SupercellTangent
import Verif.Props.ResolutionTangent
import Verif.Props.EmissionReciprocity
import Verif.Props.AbsorbingTensor
import Verif.Props.Duality
import Verif.Props.TangentSymmetry
import Verif.Model.BatchStack
import Verif.Model.BatchFields
import Verif.Model.BatchFields3d
import Verif.Spec.BatchFields
import Verif.Proofs.BatchStack
import Verif.Proofs.BatchFields
import Verif.Proofs.BatchShape
import Verif.Proofs.BatchFields3d
import Verif.Props.BatchStack
import Verif.Props.BatchFields
import Verif.Props.BatchFields3d
import Verif.Props.BatchSources
import Verif.Model.BatchThickness
import Verif.Spec.BatchThickness
import Verif.Proofs.BatchThickness
import Verif.Proofs.BatchThicknessShape
import Verif.Props.BatchThickness
import Verif.Model.BatchScan
import Verif.Spec.BatchScan
import Verif.Proofs.BatchScan
import Verif.Proofs.BatchScanRepeat
import Verif.Props.BatchScan
import Verif.Model.FluxBatch
import Verif.Proofs.FluxBatchSum
import Verif.Proofs.FluxBatch
import Verif.Proofs.FluxBatchWeights
import Verif.Props.FluxBatch
import Verif.Spec.Mirror
import Verif.Proofs.Mirror
import Verif.Props.Mirror
import Verif.Props.MirrorEmission
import Verif.Model.BatchAmplitudes
import Verif.Spec.BatchAmplitudes
import Verif.Proofs.BatchAmplitudes
import Verif.Props.BatchAmplitudes
import Verif.Spec.Smooth
import Verif.Proofs.Smooth
import Verif.Props.Smooth
import Verif.Proofs.SmoothUniform
import Verif.Props.SmoothUniform
import Verif.Spec.GratingRows
import Verif.Proofs.GratingRows
import Verif.Props.GratingRows
import Verif.Spec.SmoothMedium
import Verif.Proofs.SmoothRoot
import Verif.Proofs.SmoothOperators
import Verif.Props.SmoothMedium
import Verif.Spec.EigGradient
import Verif.Props.EigGradient
import Verif.Spec.EigChoice
import Verif.Props.EigChoice
import Verif.Proofs.Thick
import Verif.Props.Thick
import Verif.Spec.TimeReversal
import Verif.Proofs.TimeReversal
import Verif.Props.TimeReversal
import Verif.Proofs.TangentConj
import Verif.Props.TimeReversalTangent
import Verif.Props.ModeThickness
