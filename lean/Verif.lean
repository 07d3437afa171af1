import Verif.Props.Index
import Verif.Props.Enforce
import Verif.Props.Translate
import Verif.Props.Jump
import Verif.Props.MathInt
import Verif.Props.Rational
import Verif.Props.RationalText
import Verif.Props.Relational
import Verif.Props.AccumCount
import Verif.Props.AccumSum
import Verif.Props.AccumStats
import Verif.Props.Hist
import Verif.Props.MoveStats
import Verif.Props.ObservableGroup
import Verif.Props.Serialize
import Verif.Props.MathFloat
import Verif.Props.Utils
import Verif.Props.LogSpace
import Verif.Props.Bravais
import Verif.Props.Neighbors
import Verif.Props.Nearest
import Verif.Props.OpenLattice
import Verif.Props.Momenta
import Verif.Props.SumRule
import Verif.Props.Tables
import Verif.Props.Rng
import Verif.Props.KahanBound
import Verif.Props.WelfordBound
import Verif.Props.MoveHistory
import Verif.Props.HistUnit
import Verif.Props.Apply
import Verif.Props.Dumpmt
import Verif.Props.RationalFloat
import Verif.Props.Small
import Verif.Props.Geometry
import Verif.Props.UpperBound
import Verif.Props.GcdSign
import Verif.Props.Triangular
import Verif.Props.Norm
import Verif.Props.Exceptions
import Verif.Props.SkBounds
import Verif.Props.RationalInt
import Verif.Props.DoubleLattice
import Verif.Props.DoubleTriangular
import Verif.Spec.Hops
import Verif.Props.Hops
import Verif.Props.Assertions
import Verif.Props.DefaultGrid
import Verif.Props.LinSpaceDouble
import Verif.Props.JumpLarge
import Verif.Props.HistBounds
import Verif.Lemmas.LogDouble
import Verif.Props.LogSpaceDouble
import Verif.Model.LinSpaceLong
import Verif.Props.LinSpaceLong
import Verif.Props.HistDouble
import Verif.Props.WestDouble
import Verif.Model.MathUnsigned
import Verif.Props.MathUnsigned
import Verif.Model.Disk
import Verif.Props.Disk
import Verif.Props.Refused
import Verif.Model.Draw
import Verif.Props.Draw
import Verif.Model.Twister
import Verif.Props.Twister
import Verif.Props.LerpDouble
import Verif.Model.Moves
import Verif.Props.Moves
import Verif.Props.WelfordError
import Verif.Props.WestError
import Verif.Props.PrintSci
import Verif.Props.PrintShort
import Verif.Props.MomentaDouble
import Verif.Props.SkDouble
import Verif.Props.KahanDouble
import Verif.Cxx.IntTypes
import Verif.Model.MathTypes
import Verif.Props.MathTypes
import Verif.Model.RationalTypes
import Verif.Props.RationalTypes
import Verif.Model.MathMixed
import Verif.Props.MathMixed
import Verif.Props.DumpmtCut
import Verif.Cxx.TextTypes
import Verif.Props.RationalTypesText
import Verif.Props.MeansDouble
import Verif.Model.LinSpaceTypes
import Verif.Props.LinSpaceTypes
import Verif.Props.BravaisDouble
import Verif.Model.LogSpaceTypes
import Verif.Props.LogSpaceTypes
import Verif.Props.LogSpaceTypesDouble
import Verif.Cxx.SignedZero
import Verif.Lemmas.FloatHom
import Verif.Lemmas.FloatHomModel
import Verif.Props.SignedZero
import Verif.Props.NoMinusZero
import Verif.Props.Iterations
import Verif.Model.Contracted
import Verif.Props.Contracted
import Verif.Cxx.FloatFormat
import Verif.Lemmas.FloatFormat
import Verif.Props.Formats
import Verif.Model.MathFloatContainers
import Verif.Props.FloatContainers
import Verif.Props.WestContracted
import Verif.Props.SkContracted
import Verif.Props.DrawContracted
import Verif.Props.MomentaTriangular
import Verif.Props.SkTriangular
import Verif.Model.LogSpaceFloat
import Verif.Props.LogSpaceFormats
import Verif.Model.DrawFormats
import Verif.Props.DrawFormats
import Verif.Model.NormFloat
import Verif.Props.NormFormats
import Verif.Model.BinomialFloat
import Verif.Props.BinomialFormats
import Verif.Model.MathBool
import Verif.Props.MathBool
import Verif.Model.Measured
import Verif.Props.Measured
import Verif.Props.RationalParsed
import Verif.Props.RationalParsedTypes
import Verif.Props.LatticeDimension
import Verif.Props.ReciprocalDouble
import Verif.Model.Aliased
import Verif.Props.Aliased
import Verif.Props.NearestSkew
import Verif.Props.NearestDouble
import Verif.Props.WestSample
import Verif.Props.SkBravais
import Verif.Props.SkAccumulated
import Verif.Props.OpenExact
import Verif.Props.InverseVector
import Verif.Props.NotFinite
import Verif.Props.RationalExact
import Verif.Props.HistRatio
import Verif.Props.MomentaExact
import Verif.Props.Negated
import Verif.Props.Opposite
import Verif.Model.NormContracted
import Verif.Props.FormatsFused
import Verif.Lemmas.Scale
import Verif.Props.Scaled
import Verif.Lemmas.Related
import Verif.Props.Units
import Verif.Props.ScaledStats
import Verif.Model.LatticeContracted
import Verif.Props.LatticeContracted
import Verif.Props.ScaledSk
import Verif.Props.UnitsContracted
import Verif.Props.StatsUnitsContracted
import Verif.Props.MovesMean
import Verif.Props.MoveTrend
import Verif.Props.ScaledChoice
import Verif.Props.ContainerErrors
import Verif.Props.ProductError
import Verif.Props.InvertedContainers
import Verif.Props.MonotoneContainers
import Verif.Props.NeutralElements
import Verif.Props.ZeroAdded
import Verif.Props.ScaledVarianceGrows
import Verif.Props.WestFirstWeight
import Verif.Props.EqualWeights
