import Mathlib.Algebra.BigOperators.Group.List.Basic
import Mathlib.Algebra.Field.Basic

/-!
# Specifications: elementary statistics of a finite list

Plain textbook definitions, independent of the model.  A stream of samples is a `List`, first
pushed sample first.  `x / 0` never matters: every theorem that uses a quotient asks for a
non-empty list (or a non-zero total weight).
-/

namespace Acc.Spec

variable {K : Type*} [Field K]

/-- Arithmetic mean `(x₁ + … + xₙ) / n`. -/
def mean (xs : List K) : K := xs.sum / (xs.length : K)

/-- `k`-th raw moment `(x₁ᵏ + … + xₙᵏ) / n`. -/
def rawMoment (k : ℕ) (xs : List K) : K := (xs.map (fun x => x ^ k)).sum / (xs.length : K)

/-- `k`-th central moment `((x₁-m)ᵏ + … + (xₙ-m)ᵏ) / n`, `m` the mean. -/
def centralMoment (k : ℕ) (xs : List K) : K :=
  (xs.map (fun x => (x - mean xs) ^ k)).sum / (xs.length : K)

/-- Population variance: second central moment. -/
def variance (xs : List K) : K := centralMoment 2 xs

/-- Unbiased sample variance `Σ (xᵢ-m)² / (n-1)`. -/
def sampleVariance (xs : List K) : K :=
  (xs.map (fun x => (x - mean xs) ^ 2)).sum / ((xs.length : K) - 1)

/-- Population covariance of a list of pairs. -/
def covariance (ps : List (K × K)) : K :=
  (ps.map (fun p => (p.1 - mean (ps.map Prod.fst)) * (p.2 - mean (ps.map Prod.snd)))).sum
    / (ps.length : K)

/-! Weighted statistics: a stream of pairs `(sample, weight)`. -/

/-- Total weight. -/
def wtotal (ps : List (K × K)) : K := (ps.map Prod.snd).sum

/-- Weighted mean `Σ wᵢ xᵢ / Σ wᵢ`. -/
def wmean (ps : List (K × K)) : K := (ps.map (fun p => p.2 * p.1)).sum / wtotal ps

/-- Weighted raw moment `Σ wᵢ xᵢᵏ / Σ wᵢ`. -/
def wrawMoment (k : ℕ) (ps : List (K × K)) : K :=
  (ps.map (fun p => p.2 * p.1 ^ k)).sum / wtotal ps

/-- Weighted central moment `Σ wᵢ (xᵢ-m)ᵏ / Σ wᵢ`. -/
def wcentralMoment (k : ℕ) (ps : List (K × K)) : K :=
  (ps.map (fun p => p.2 * (p.1 - wmean ps) ^ k)).sum / wtotal ps

/-- Weighted population variance. -/
def wvariance (ps : List (K × K)) : K := wcentralMoment 2 ps

/-- Weighted population covariance of `((x, y), w)` triples. -/
def wcovariance (ps : List ((K × K) × K)) : K :=
  (ps.map (fun p => p.2 * ((p.1.1 - wmean (ps.map (fun q => (q.1.1, q.2))))
    * (p.1.2 - wmean (ps.map (fun q => (q.1.2, q.2))))))).sum / wtotal (ps.map (fun q => (q.1.1, q.2)))

/-- Every non-empty initial part of the stream has non-zero total weight. -/
def NonzeroPrefixes {X : Type*} (weight : X → K) (ps : List X) : Prop :=
  ∀ n, 0 < n → n ≤ ps.length → ((ps.take n).map weight).sum ≠ 0

/-- Each sample repeated as often as its (integer) weight says. -/
def expand {X : Type*} (ps : List (X × ℕ)) : List X :=
  ps.flatMap (fun p => List.replicate p.2 p.1)

end Acc.Spec
