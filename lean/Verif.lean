import Verif.Model.Basic
import Verif.Model.Selections
import Verif.Lemmas.Dict
import Verif.Spec.Partition
import Verif.Lemmas.Selections
import Verif.Props.Selections
import Verif.Model.WhiteNoise
import Verif.Lemmas.WhiteNoise
import Verif.Props.WhiteNoise
import Verif.Model.Quantize
import Verif.Lemmas.Quantize
import Verif.Props.Quantize
import Verif.Model.PulsarData
import Verif.Spec.PulsarData
import Verif.Lemmas.PulsarData
import Verif.Props.PulsarData
import Verif.Model.Cache
import Verif.Lemmas.Cache
import Verif.Props.Cache
import Verif.Model.Feather
import Verif.Lemmas.Feather
import Verif.Props.Feather
import Verif.Model.Inflate
import Verif.Props.Inflate
import Verif.Model.Loader
import Verif.Props.Loader
import Verif.Model.Function
import Verif.Model.Params
import Verif.Model.Collections
import Verif.Model.Kernel
import Verif.Model.Combine
import Verif.Model.PtaPhi
import Verif.Model.PhiInv
import Verif.Model.Partition
import Verif.Props.Function
import Verif.Props.Params
import Verif.Props.Sampling
import Verif.Props.Collections
import Verif.Props.Kernel
import Verif.Props.Combine
import Verif.Props.PtaPhi
import Verif.Props.PhiInv
import Verif.Props.Cliques
import Verif.Props.Partition
import Verif.Props.Noise
import Verif.Props.Marg
import Verif.Props.Short
import Verif.Lemmas.Gauss
import Verif.Lemmas.Joint
import Verif.Model.Likelihood
import Verif.Props.Likelihood
import Verif.Props.LikelihoodJoint
import Verif.Model.Coefficients
import Verif.Props.Hier
import Verif.Props.Draws
import Verif.Props.Labels
import Verif.Model.Priors
import Verif.Spec.Prior
import Verif.Spec.Epoch
import Verif.Spec.Gaussian
import Verif.Lemmas.Density
import Verif.Lemmas.GaussInt
import Verif.Props.Priors
import Verif.Props.TruncSampler
import Verif.Props.Evidence
import Verif.Model.Bases
import Verif.Props.Bases
import Verif.Model.Spectra
import Verif.Props.Spectra
import Verif.Model.Interp
import Verif.Props.Interp
import Verif.Props.TmBasis
import Verif.Model.Wideband
import Verif.Props.Wideband
import Verif.Lemmas.Sphere
import Verif.Lemmas.HdSeries
import Verif.Model.Orf
import Verif.Props.Orf
import Verif.Model.Anis
import Verif.Props.Anis
import Verif.Model.Ephem
import Verif.Props.Ephem
import Verif.Model.Common
import Verif.Props.Common
import Verif.Model.Binary
import Verif.Props.Binary
import Verif.Lemmas.Kepler
import Verif.Model.Sources
import Verif.Props.Sources
import Verif.Model.BasisGP
import Verif.Props.BasisGP
import Verif.Model.Collect
import Verif.Props.Collect
import Verif.Props.EcorrGP
import Verif.Model.Joined
import Verif.Lemmas.Pairs
import Verif.Props.Joined
import Verif.Model.Fourier
import Verif.Props.Fourier
import Verif.Model.Standard
import Verif.Props.Standard
import Verif.Model.Background
import Verif.Props.Background
import Verif.Props.Rows
import Verif.Props.Members
import Verif.Props.Gwb
import Verif.Model.Commons
import Verif.Props.SameCov
import Verif.Props.EphemGp
import Verif.Props.PhysGp
import Verif.Model.Several
import Verif.Props.Aligned
import Verif.Props.Shared
import Verif.Props.Several
import Verif.Model.StdArray
import Verif.Props.StdArray
import Verif.Model.WidebandPsr
import Verif.Props.WidebandPsr
import Verif.Model.SkyMap
import Verif.Props.SkyMap
import Verif.Model.EpochEphem
import Verif.Props.EpochEphem
import Verif.Model.TProcess
import Verif.Props.TProcess
import Verif.Model.Inspiral
import Verif.Props.Inspiral
import Verif.Props.Library
import Verif.Props.Cases
import Verif.Props.Constants
import Verif.Model.Samplers
import Verif.Props.Samplers
import Verif.Props.TruncVector
import Verif.Props.PsrOrder
import Verif.Model.SigParams
import Verif.Props.SigParams
import Verif.Lemmas.SkyMeasure
import Verif.Lemmas.HdIntegral
import Verif.Props.HdSky
import Verif.Props.ToaOrder
import Verif.Props.Named
import Verif.Props.Wide
import Verif.Props.Continuous
import Verif.Model.UserPar
import Verif.Props.UserPar
import Verif.Model.Calls
import Verif.Props.Calls
import Verif.Props.Units
import Verif.Props.Proper
import Verif.Props.Truth
import Verif.Props.Reduced
import Verif.Props.Pickle
import Verif.Props.Ieee
import Verif.Props.IeeeToas
import Verif.Props.Dropped
import Verif.Props.IeeeEdge
import Verif.Props.IeeeDraw
import Verif.Props.IeeePhi
import Verif.Props.IeeeBases
import Verif.Props.IeeeWhite
import Verif.Props.IeeeEcorr
import Verif.Props.IeeeOrf
import Verif.Props.Processes
import Verif.Props.IeeeTm
import Verif.Lemmas.CholReal
import Verif.Lemmas.CholForm
import Verif.Props.IeeeChol
import Verif.Props.IeeeCholDet
import Verif.Props.IeeeCholLike
import Verif.Lemmas.CholNear
import Verif.Props.IeeeData
import Verif.Props.IeeePta
import Verif.Model.IeeeNoise
import Verif.Props.IeeeParams
import Verif.Props.IeeeTimes
import Verif.Props.IeeeChrom
import Verif.Props.IeeeShared
import Verif.Props.Distance
import Verif.Props.IeeeEpochs
import Verif.Props.EphemSignal
import Verif.Props.Mapping
import Verif.Props.IeeeFull
import Verif.Props.SameName
import Verif.Props.IeeeBounds
