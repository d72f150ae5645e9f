import Verif.Props.Group
import Verif.Props.Representation
import Verif.Props.Projection
import Verif.Props.Utils
import Verif.Props.Reality
import Verif.Props.RealCase
import Verif.Props.Pointgroup
import Verif.Props.Chain
import Verif.Props.SmallReps
import Verif.Props.SmallReal
import Verif.Props.ProjectBasis
import Verif.Props.Tensor
import Verif.Props.Intrinsic
import Verif.Props.Random
import Verif.Props.Transform
import Verif.Props.Core
import Verif.Props.Conventional
import Verif.Props.Spinor
import Verif.Props.Corep
import Verif.Props.Coset
import Verif.Props.CorepLaw
import Verif.Model.CoreSpinor
import Verif.Proofs.CoreSpinor
import Verif.Props.CoreSpinor
import Verif.Props.Magnetic
import Verif.Props.CorepOrigin
import Verif.Props.Exact
import Verif.Spec.Setting
import Verif.Proofs.Setting
import Verif.Props.Setting
import Verif.Proofs.ClassCount
import Verif.Props.Classes
import Verif.Spec.CorepClass
import Verif.Proofs.CorepClass
import Verif.Props.CorepClass
import Verif.Spec.RealRep
import Verif.Proofs.RealIrred
import Verif.Proofs.RealComplete
import Verif.Proofs.RealForm
import Verif.Props.RealIrreps
import Verif.Proofs.RealProject
import Verif.Proofs.RealRefine
import Verif.Proofs.RealCounter
import Verif.Props.TensorReal
import Verif.Props.RealProjection
import Verif.Props.ChainTable
import Verif.Proofs.TrivialFirst
import Verif.Props.Order
import Verif.Proofs.Angles
import Verif.Props.Angles
import Verif.Proofs.Adapted
import Verif.Props.Adapted
import Verif.Proofs.Frame
import Verif.Props.ProjectCount
import Verif.Proofs.TensorRun
import Verif.Props.TensorRun
import Verif.Proofs.NonUnitary
import Verif.Props.NonUnitary
import Verif.Proofs.Draws
import Verif.Props.Draws
import Verif.Proofs.PointgroupApi
import Verif.Props.PointgroupApi
import Verif.Proofs.TensorNonUnitary
import Verif.Proofs.TensorHex
import Verif.Props.TensorNonUnitary
import Verif.Proofs.TensorRealValues
import Verif.Props.TensorRealValues
import Verif.Props.Plancherel
import Verif.Props.Dimensions
import Verif.Props.AlmostSure
import Verif.Props.CrystalClass
import Verif.Proofs.RealCharacters
import Verif.Props.RealCharacters
import Verif.Spec.ConvPhases
import Verif.Proofs.ConvRuns
import Verif.Props.ConvRuns
import Verif.Spec.CorepChar
import Verif.Props.CorepCharacters
import Verif.Spec.Bloch
import Verif.Props.Bloch
import Verif.Props.AnyAnswer
import Verif.Props.Rounding
import Verif.Proofs.Ulam
import Verif.Props.Checkers
import Verif.Proofs.UlamUnitary
import Verif.Props.Certificate
import Verif.Props.SelfCheck
import Verif.Props.CheckOutcome
import Verif.Props.PointgroupTest
import Verif.Props.SymmetricCount
import Verif.Props.SymmetricLoss
import Verif.Props.PointgroupKramers
import Verif.Props.SymmetricFull
import Verif.Props.InputCell
import Verif.Props.SpinorFrame
import Verif.Props.Star
import Verif.Props.CorepFrame
import Verif.Props.AbstractGroup
import Verif.Props.SpinorInversion
import Verif.Props.AnyKpoint
import Verif.Props.Neumann
import Verif.Props.Multiplicity
import Verif.Props.Branching
import Verif.Props.FullGroup
import Verif.Props.Stars
import Verif.Props.StarPairs
import Verif.Props.WholeReality
import Verif.Props.WholeSign
