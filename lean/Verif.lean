import Verif.Props.Perm
import Verif.Props.PotMirror
import Verif.Props.Affine
import Verif.Props.Basic
import Verif.Props.Rolling
import Verif.Props.Tail
import Verif.Props.TailEst
import Verif.Props.Weighted
import Verif.Props.Density
import Verif.Props.Median
import Verif.Props.PSquare
import Verif.Props.PSquareInterp
import Verif.Props.WPSquare
import Verif.Props.CumulMedian
import Verif.Props.WTail
import Verif.Props.Pot
import Verif.Props.PotQuantile
import Verif.Props.Framework
import Verif.Props.AccSet
import Verif.Props.StdSets
import Verif.Props.StatSet
import Verif.Props.FullSet
import Verif.Props.SafeSet
import Verif.Props.QuerySet
import Verif.Props.Cplx
import Verif.Props.Consistent
import Verif.Props.Monotone
import Verif.Props.ZeroWeight
import Verif.Props.Nonfinite
import Verif.Props.Memory
import Verif.Props.RoundWeighted
import Verif.Props.RoundVar
import Verif.Props.Views
import Verif.Props.Multiplicity
import Verif.Props.Modifiers
import Verif.Props.ExtWeights
import Verif.Props.VecWCov
import Verif.Props.RepoTests
import Verif.Props.RoundWPsq
import Verif.Props.RoundWDensity
import Verif.Props.NonfiniteDensity
import Verif.Props.NonfinitePsq
import Verif.Props.NonfiniteTail
import Verif.Props.NonfiniteWeighted
import Verif.Props.IntEst
import Verif.Props.RoundRolling
import Verif.Props.RoundCov
import Verif.Props.RoundWVar
import Verif.Props.RoundRollVar
import Verif.Props.RoundKurt
import Verif.Props.RoundRoot
import Verif.Props.NonfiniteRoot
import Verif.Props.RoundTailMean
import Verif.Props.Scale
import Verif.Props.ScaleTail
import Verif.Props.RoundWhole
import Verif.Props.RoundConst
import Verif.Props.MonoData
import Verif.Props.OneMore
import Verif.Props.WCumulAim
import Verif.Props.Wrappers
import Verif.Props.Serial
import Verif.Props.VecStats
import Verif.Props.VecCov
import Verif.Props.Round
import Verif.Props.RoundDensity
import Verif.Props.RoundPsq
import Verif.Props.IntSamples
import Verif.Props.RoundTail
import Verif.Audit
