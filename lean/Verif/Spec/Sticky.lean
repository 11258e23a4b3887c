import Verif.Model.FullSet
import Verif.Spec.Features

/-!
# Specification: which results depend on earlier extractions

`with_density_median` continues a sum from one extraction to the next (`median.hpp:99-101`), the peaks over threshold
continue from the mean and variance of the last fit (`peaks_over_threshold.hpp:167-169`, `286-292`), and what is computed
from the fit depends on it.  Everything else starts anew.
-/

namespace Acc.Spec


/-- The features whose `result()` reads what an earlier `result()` has written into the same members. -/
def sticky : StdF → Bool
  | .withDensityMedian | .withDensityWeightedMedian => true
  | .peaksOverThreshold _ | .peaksOverThresholdProb _ | .weightedPeaksOverThreshold _
  | .weightedPeaksOverThresholdProb _ => true
  | .potQuantile _ | .potQuantileProb _ | .weightedPotQuantile _ | .weightedPotQuantileProb _ => true
  | .potTailMean _ | .potTailMeanProb _ | .weightedPotTailMean _ | .weightedPotTailMeanProb _ => true
  | _ => false

/-- The features that keep something along with the samples of the tail, and the side of the tail: which of two equal
samples the heap keeps depends on how often it was sorted (C16). -/
def alongTail : StdF → Option Side
  | .tailVariate _ side | .tailWeights side => some side
  | _ => none

/-- The accumulator `t` of the set `S` and the accumulators it uses return what the pushed stream `as` determines: none of
them remembers earlier extractions; if one keeps covariates or weights along with the tail, that is a tail of the same
side, and all samples are distinct. -/
structure Independent {K : Type} (S : List (Tag StdF)) (as : List (FArgs K)) (t : Tag StdF) : Prop where
  mem : t ∈ S
  sticky : ∀ e, e = t ∨ Uses stdLib S t e → Spec.sticky e.base = false
  tail : ∀ e, e = t ∨ Uses stdLib S t e → ∀ side, alongTail e.base = some side → ∃ u ∈ S, u.base = .tail side
  ties : ∀ e, e = t ∨ Uses stdLib S t e → ∀ side, alongTail e.base = some side → (as.map fun a => a.x).Nodup

end Acc.Spec
