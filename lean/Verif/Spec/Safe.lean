import Verif.Model.FullSet

/-!
# Specification: results that the language defines

A value, a NaN or infinity, and an exception are results a program can deal with; undefined behaviour and a call that never
returns are not.  What follows lists what a user has to supply for the former, in terms of the construction arguments and
of the stream.
-/

namespace Acc

/-- Neither undefined behaviour nor an endless loop. -/
def Res.Defined {α : Type} : Res α → Prop
  | .ub | .diverges => False
  | _ => True

namespace Spec

open StdF

variable {K : Type}

/-- A defined result of an extraction; every component is defined, too. -/
def Safe : Out K → Prop
  | .num r => r.Defined
  | .list r => r.Defined
  | .vecs r => r.Defined
  | .hist r => r.Defined ∧ ∀ l, r = .val l → ∀ b ∈ l, b.2.Defined
  | .fit r => r.Defined ∧ ∀ f, r = .val f → f.1.Defined ∧ f.2.1.Defined ∧ f.2.2.Defined
  | .missing => False

section
variable [Field K] [LinearOrder K]

/-- Construction arguments that make sense: sizes are not 0, probabilities lie inside (0, 1), the probabilities of
`extended_p_square` are in order.  (`std::pow` and the functions with a square root return something whatever they are
given.) -/
structure SensibleCfg (cfg : Cfg K) : Prop where
  window : 1 ≤ cfg.window
  densCache : 1 ≤ cfg.densCache
  numBins : 1 ≤ cfg.numBins
  cells : 1 ≤ cfg.cells
  tailCache : 1 ≤ cfg.tailCache
  probs : cfg.probs ≠ []
  sorted : cfg.probs.Pairwise (· < ·)
  potProb : 0 < cfg.potProb ∧ cfg.potProb < 1
  pw : ∀ x y, (cfg.pw x y).Defined
  irr : ∀ k n rd, k = skewness ∨ k = errorOfMean → (rd mean).Defined → (rd (moment 2)).Defined → (rd (moment 3)).Defined →
    (rd variance).Defined → (cfg.irr k n rd).Defined

/-- A stream that makes sense: not empty, samples within the limits of their type, positive weights, the covariate vectors of
one kind all of the same dimension. -/
structure SensibleStream (cfg : Cfg K) (w : Bool) (as : List (FArgs K)) : Prop where
  nonempty : as ≠ []
  limits : ∀ a ∈ as, cfg.lo ≤ a.x ∧ a.x ≤ cfg.hi
  weights : w = true → ∀ a ∈ as, 0 < a.w
  dims : ∀ v, ∀ a ∈ as, ∀ b ∈ as, (a.vec v).length = (b.vec v).length

end

/-- Features that may fail nevertheless: the medians read from histograms (C29), quadratic interpolation between two
probabilities (C25), the weighted means of covariates when the cache does not hold the whole stream (C38). -/
def Delicate (cfg : Cfg K) (as : List (FArgs K)) : StdF → Prop
  | withDensityMedian | withDensityWeightedMedian | withCumulMedian | withCumulWeightedMedian => True
  | extendedPSquareQuantileQuadratic | weightedExtendedPSquareQuantileQuadratic => cfg.probs.length = 2
  | absoluteWeightedTailVariateMeans _ _ | relativeWeightedTailVariateMeans _ _ =>
    cfg.hasNaN = true ∧ cfg.tailCache < as.length
  | _ => False

end Spec

end Acc
