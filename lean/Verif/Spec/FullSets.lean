import Verif.Model.FullSet

/-!
# Specification: what an estimator returns in a set of its own

The sets of a single feature and its dependencies, as modelled in `Model/Rolling`, `Model/Density`, `Model/PSquare`,
`Model/Median`, `Model/Tail`, `Model/WTail`, `Model/Pot`; fed with a stream, then asked once.
-/

namespace Acc.Spec

open StdF

variable {K : Type} [Field K] [LinearOrder K] [FloorRing K]

/-- The samples, and the samples with what goes along with them. -/
def samples (as : List (FArgs K)) : List K := as.map fun a => a.x
def weightedSamples (as : List (FArgs K)) : List (K × K) := as.map fun a => (a.x, a.w)
def withVariate (v : ℕ) (as : List (FArgs K)) : List (K × List K) := as.map fun a => (a.x, a.vec v)
def withBoth (v : ℕ) (as : List (FArgs K)) : List (K × (List K × K)) := as.map fun a => (a.x, (a.vec v, a.w))
def bare (as : List (FArgs K)) : List (K × Unit) := as.map fun a => (a.x, ())

/-- A result that may be NaN or an exception. -/
def flat {β : Type} (r : Res (Res β)) : Res β := r.bind id

/-- What the accumulator of feature `f` returns in a set of its own, after the pushes `as`; `p` is the probability passed to
the extractor. -/
def alone (cfg : Cfg K) (as : List (FArgs K)) (p : K) : StdF → Out K
  | rollingWindowPlus1 => .list (.val (rollRun .immediate cfg.window 0 (samples as)).b.elems)
  | rollingWindow => .list (.val (windowResult (rollRun .immediate cfg.window 0 (samples as)).b))
  | StdF.rollingCount => .num (.val (Acc.rollingCount (rollRun .immediate cfg.window 0 (samples as)).b : K))
  | rollingSum => .num (rollRun .immediate cfg.window 0 (samples as)).sum
  | rollingMean | immediateRollingMean => .num ((rollRun .immediate cfg.window 0 (samples as)).mean .immediate)
  | rollingMoment m =>
    let s := rollRun .immediate cfg.window 0 (samples as)
    .num (rollingMomentResult s.b (s.moment m))
  | rollingVariance | immediateRollingVariance =>
    let s := rollRun .immediate cfg.window 0 (samples as)
    .num (s.var.result s.b)
  | lazyRollingVariance =>
    let s := rollRun .immediate cfg.window 0 (samples as)
    .num (lazyRollingVarianceResult s.b (rollingMomentResult s.b (s.moment 2)) (s.mean .immediate))
  | density => .hist ((densitySet cfg.lo cfg.hi cfg.densCache cfg.numBins 0).answer (onlyPushes (samples as)) ())
  | weightedDensity =>
    .hist ((wdensitySet cfg.lo cfg.hi cfg.densCache cfg.numBins 0).answer (onlyPushes (weightedSamples as)) ())
  | pSquareQuantile => .num ((psqQuantileSet cfg.prob).answer (onlyPushes (samples as)) ())
  | pSquareQuantileForMedian | median => .num (medianSet.answer (onlyPushes (samples as)) ())
  | pSquareCumul => .hist ((psqCumulSet cfg.cells).answer (onlyPushes (samples as)) ())
  | extendedPSquare => .list ((epsqSet cfg.probs).answer (onlyPushes (samples as)) ())
  | extendedPSquareQuantile =>
    .num (flat ((epsqQuantileSet .linear cfg.hasNaN cfg.probs).answer (onlyPushes (samples as)) p))
  | extendedPSquareQuantileQuadratic =>
    .num (flat ((epsqQuantileSet .quadratic cfg.hasNaN cfg.probs).answer (onlyPushes (samples as)) p))
  | weightedPSquareQuantile => .num ((wpsqQuantileSet cfg.prob).answer (onlyPushes (weightedSamples as)) ())
  | weightedPSquareQuantileForMedian | weightedMedian =>
    .num (wmedianSet.answer (onlyPushes (weightedSamples as)) ())
  | weightedPSquareCumul => .hist ((wpsqCumulSet cfg.cells).answer (onlyPushes (weightedSamples as)) ())
  | weightedExtendedPSquare => .list ((wepsqSet cfg.probs).answer (onlyPushes (weightedSamples as)) ())
  | weightedExtendedPSquareQuantile =>
    .num (flat ((wepsqQuantileSet .linear cfg.hasNaN cfg.probs).answer (onlyPushes (weightedSamples as)) p))
  | weightedExtendedPSquareQuantileQuadratic =>
    .num (flat ((wepsqQuantileSet .quadratic cfg.hasNaN cfg.probs).answer (onlyPushes (weightedSamples as)) p))
  | withDensityMedian =>
    .num ((dmedianSet cfg.lo cfg.hi cfg.densCache cfg.numBins 0).answer (onlyPushes (samples as)) ())
  | withDensityWeightedMedian =>
    .num ((wdmedianSet cfg.lo cfg.hi cfg.densCache cfg.numBins 0).answer (onlyPushes (weightedSamples as)) ())
  | withCumulMedian => .num ((cmedianSet cfg.cells).answer (onlyPushes (samples as)) ())
  | withCumulWeightedMedian => .num ((wcmedianSet cfg.cells).answer (onlyPushes (weightedSamples as)) ())
  | StdF.tail s => .list (extractTail cfg.heap s cfg.tailCache 0 () (onlyPushes (bare as)))
  | tailVariate v s => .vecs (extractTailVariate cfg.heap s cfg.tailCache 0 [] (onlyPushes (withVariate v as)))
  | tailWeights s => .list (extractTailVariate cfg.heap s cfg.tailCache 0 0 (onlyPushes (weightedSamples as)))
  | StdF.tailQuantile s =>
    .num (Acc.tailQuantile cfg.heap s cfg.hasNaN cfg.tailCache 0 () (onlyPushes (bare as)) p)
  | StdF.nonCoherentTailMean s =>
    .num (Acc.nonCoherentTailMean cfg.heap s cfg.hasNaN cfg.tailCache 0 () (onlyPushes (bare as)) p)
  | StdF.coherentTailMean s =>
    .num (Acc.coherentTailMean cfg.heap s cfg.hasNaN cfg.tailCache 0 () (onlyPushes (bare as)) p)
  | absoluteTailVariateMeans s v =>
    .list (tailVariateMeans cfg.heap s false cfg.hasNaN cfg.tailCache 0 [] (onlyPushes (withVariate v as)) p)
  | relativeTailVariateMeans s v =>
    .list (tailVariateMeans cfg.heap s true cfg.hasNaN cfg.tailCache 0 [] (onlyPushes (withVariate v as)) p)
  | weightedTailQuantile s =>
    .num (wtailQuantile cfg.heap s cfg.hasNaN id cfg.tailCache 0 0 (onlyPushes (weightedSamples as)) p)
  | nonCoherentWeightedTailMean s =>
    .num (wtailMean cfg.heap s cfg.hasNaN id cfg.tailCache 0 0 (onlyPushes (weightedSamples as)) p)
  | absoluteWeightedTailVariateMeans s v =>
    .list (wtailVariateMeans cfg.heap s false cfg.hasNaN cfg.tailCache 0 ([], 0) (onlyPushes (withBoth v as)) p)
  | relativeWeightedTailVariateMeans s v =>
    .list (wtailVariateMeans cfg.heap s true cfg.hasNaN cfg.tailCache 0 ([], 0) (onlyPushes (withBoth v as)) p)
  | peaksOverThreshold s => .fit ((potSet cfg.pw s cfg.potThr).answer (onlyPushes (samples as)) ())
  | weightedPeaksOverThreshold s => .fit ((wpotSet cfg.pw s cfg.potThr).answer (onlyPushes (weightedSamples as)) ())
  | peaksOverThresholdProb s =>
    .fit ((potProbSet cfg.pw cfg.heap s cfg.hasNaN cfg.tailCache () cfg.potProb).answer (onlyPushes (bare as)) ())
  | weightedPeaksOverThresholdProb s =>
    .fit ((wpotProbSet cfg.pw cfg.heap s cfg.hasNaN cfg.tailCache cfg.potProb).answer (onlyPushes (weightedSamples as)) ())
  | StdF.potQuantile s =>
    .num (flat ((potQuantileSet cfg.pw s (potSet cfg.pw s cfg.potThr)).answer (onlyPushes (samples as)) p))
  | weightedPotQuantile s =>
    .num (flat ((potQuantileSet cfg.pw s (wpotSet cfg.pw s cfg.potThr)).answer (onlyPushes (weightedSamples as)) p))
  | potQuantileProb s =>
    .num (flat ((potQuantileSet cfg.pw s (potProbSet cfg.pw cfg.heap s cfg.hasNaN cfg.tailCache () cfg.potProb)).answer
      (onlyPushes (bare as)) p))
  | weightedPotQuantileProb s =>
    .num (flat ((potQuantileSet cfg.pw s (wpotProbSet cfg.pw cfg.heap s cfg.hasNaN cfg.tailCache cfg.potProb)).answer
      (onlyPushes (weightedSamples as)) p))
  | StdF.potTailMean s =>
    .num (flat ((potTailMeanSet cfg.pw s (potSet cfg.pw s cfg.potThr)).answer (onlyPushes (samples as)) p))
  | weightedPotTailMean s =>
    .num (flat ((potTailMeanSet cfg.pw s (wpotSet cfg.pw s cfg.potThr)).answer (onlyPushes (weightedSamples as)) p))
  | potTailMeanProb s =>
    .num (flat ((potTailMeanSet cfg.pw s (potProbSet cfg.pw cfg.heap s cfg.hasNaN cfg.tailCache () cfg.potProb)).answer
      (onlyPushes (bare as)) p))
  | weightedPotTailMeanProb s =>
    .num (flat ((potTailMeanSet cfg.pw s (wpotProbSet cfg.pw cfg.heap s cfg.hasNaN cfg.tailCache cfg.potProb)).answer
      (onlyPushes (weightedSamples as)) p))
  | _ => .missing

end Acc.Spec
