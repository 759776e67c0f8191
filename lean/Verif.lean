import Verif.Props.Core
import Verif.Props.Laplacian
import Verif.Props.State
import Verif.Props.Fourier
import Verif.Props.Filter
import Verif.Props.Cheby
import Verif.Props.Bank
import Verif.Props.FilterWitness
import Verif.Props.Designs
import Verif.Props.Tight
import Verif.Props.Diffusion
import Verif.Props.Bands
import Verif.Props.VertexFreq
import Verif.Props.DesignWitness
import Verif.Props.Utils
import Verif.Props.Learning
import Verif.Props.Simplex
import Verif.Props.Kron
import Verif.Props.Interp
import Verif.Props.ChebInterp
import Verif.Props.Pyramid
import Verif.Props.PyramidExact
import Verif.Props.PyramidDefault
import Verif.Props.Sparsify
import Verif.Props.Multires
import Verif.Props.Generators
import Verif.Props.Torus
import Verif.Props.Grid
import Verif.Props.Comet
import Verif.Props.Community
import Verif.Props.LineGraph
import Verif.Props.BlockModel
import Verif.Props.Barabasi
import Verif.Props.RandomRegular
import Verif.Props.LowStretch
import Verif.Props.NNGraph
import Verif.Props.RandomRing
import Verif.Props.Signals
import Verif.Props.IO
import Verif.Props.IOFiles
import Verif.Props.Layout
import Verif.Props.Features
import Verif.Props.SpectraPath
import Verif.Props.SpectraRing
import Verif.Props.SpectraStar
import Verif.Props.Continuity
import Verif.Props.ChebyRect
import Verif.Props.Jackson
import Verif.Props.Lanczos
import Verif.Props.PointClouds
import Verif.Props.PointNN
import Verif.Props.ImgPatches
import Verif.Props.ChebError
import Verif.Props.Plot
import Verif.Props.LiveFilter
import Verif.Props.PlotFilter
import Verif.Props.DesignConv
import Verif.Props.Relabel
import Verif.Props.Scale
import Verif.Props.Monotone
import Verif.Props.Components
import Verif.Props.DataGraphs
import Verif.Props.Drawings
import Verif.Props.ClassicalFilters
import Verif.Props.LmaxBounds
import Verif.Props.Stability
import Verif.Props.Interlacing
import Verif.Props.Sharing
import Verif.Props.Frequency
import Verif.Props.ResistanceId
import Verif.Props.Bottleneck
import Verif.Props.FrameEstimate
import Verif.Props.Repr
import Verif.Props.Nodal
import Verif.Props.SparsifyTail
import Verif.Props.Regularisation
import Verif.Props.Localisation
import Verif.Props.KronLearning
import Verif.Props.RandomGraphs
import Verif.Props.Flows
import Verif.Props.RandomConnectivity
import Verif.Props.HeatFlow
import Verif.Props.WaveFlow
import Verif.Props.EveryCall
import Verif.Props.Windows
import Verif.Props.Classes
import Verif.Props.NNSearch
import Verif.Props.Calls
import Verif.Props.Witness
import Verif.Props.Clustering
import Verif.Props.PartialBasis
import Verif.Props.RandomWalk
import Verif.Props.ModeStability
import Verif.Props.Preferences
import Verif.Props.Limits
import Verif.Props.BarabasiLaw
import Verif.Props.SpringLayout
import Verif.Props.TwoClassifiers
import Verif.Props.NNGeometry
import Verif.Props.BlockSpectrum
import Verif.Props.Rounding
import Verif.Props.RoundedTotal
import Verif.Props.RoundedFourier
import Verif.Props.RoundedChecks
import Verif.Props.RoundedNormalized
import Verif.Props.ConjGrad
import Verif.Props.Fista
import Verif.Props.RoundedEnergy
import Verif.Props.RoundedCoeffs
import Verif.Props.RoundedDistances
import Verif.Props.CommunityDraws
import Verif.Props.CommunityDensity
import Verif.Props.KronClassical
import Verif.Props.RingPyramid
import Verif.Props.BipartiteReduction
import Verif.Props.MultiresDefault
import Verif.Props.BipartiteDefault
