import Verif.Model.IntSamples
import Verif.Model.Tail
import Verif.Model.WTail

/-!
# Samples of an integral type: variances, rolling moments and variances, tails

Continues `Model/IntSamples` (same conventions: arithmetic in the sample type where the code does it, `double` exact).
Paths are relative to `/repo/include/boost/accumulators/statistics/`.
-/

namespace Acc

section
variable {K : Type} [Arith K] [LinearOrder K] [IntCast K]

/-! ## variance -/

/-- Which mean the variance reads: `tag::variance` depends on `immediate_mean` (`variance.hpp:147-148`), but a set that
also names `tag::mean` has the lazy one, and `MeanFeature` finds whatever provides `mean`. -/
inductive IntMean where
  | lazy
  | immediate
  deriving Repr, DecidableEq

/-- The mean of the samples so far. -/
def IntMean.of (T : IntTy) (kind : IntMean) (xs : List ℤ) : Res K :=
  match kind with
  | .lazy => lazyMeanInt T xs
  | .immediate => immMeanInt xs

/-- `lazy_variance(acc)`: `variance.hpp:49-54`; `moment<2>` is accumulated in the sample type. -/
def lazyVarianceInt (T : IntTy) (kind : IntMean) (xs : List ℤ) : Res K :=
  lazyVarianceResult (momentInt T 2 xs) (kind.of T xs)

/-- `variance(acc)`: `variance.hpp:100-113`; the difference between sample and mean is a `double`.  `done` are the samples
pushed so far. -/
def varianceIntFrom (T : IntTy) (kind : IntMean) (done : List ℤ) (v : Res K) : List ℤ → Res K
  | [] => v
  | x :: xs =>
    varianceIntFrom T kind (done ++ [x]) (varianceStep (done.length + 1) (kind.of T (done ++ [x])) v (x : K)) xs

/-- `variance(acc)` of a set constructed without `sample`. -/
def varianceInt (T : IntTy) (kind : IntMean) (xs : List ℤ) : Res K := varianceIntFrom T kind [] (.val 0) xs

/-! ## rolling moment and variance -/

/-- `rolling_moment.hpp:45-53`: the powers are computed in the sample type, their sum is a `double`
(`rolling_moment.hpp:36`, 70). -/
def rollingMomentIntStep (T : IntTy) (M : ℕ) (b : Ring ℤ) (s : K) (x : ℤ) : Res K := do
  let s ← if b.full then (do let f ← b.front; let q ← powInt T f M; return s - (q : K)) else .val s
  let q ← powInt T x M
  return s + (q : K)

/-- `features<tag::rolling_moment<M>>` with window size `N` after the samples: the window and `sum_`. -/
def rollingMomentIntRun (T : IntTy) (M N : ℕ) (xs : List ℤ) : Res (Ring ℤ × K) :=
  xs.foldlM (fun s x => do
    let b := windowPush s.1 x
    let r ← rollingMomentIntStep T M b s.2 x
    return (b, r)) (windowInit N, 0)

/-- `rolling_moment<M>(acc)`: `rolling_moment.hpp:55-59`. -/
def rollingMomentInt (T : IntTy) (M N : ℕ) (xs : List ℤ) : Res K := do
  let s ← rollingMomentIntRun T M N xs
  fdiv s.2 (rollingCount s.1 : K)

/-- `rolling_mean(acc)`, lazy: `rolling_mean.hpp:41-45`. -/
def lazyRollingMeanInt (T : IntTy) (N : ℕ) (xs : List ℤ) : Res K := do
  let s ← rollingSumInt T N xs
  fdiv (s.2 : K) (rollingCount s.1 : K)

/-- `lazy_rolling_variance(acc)`: `rolling_variance.hpp:57-64`; `kind` says which mean the set has.  The pushes come
first: if one of them is undefined so is everything after it. -/
def lazyRollingVarianceInt (T : IntTy) (kind : RollMeanKind) (N : ℕ) (xs : List ℤ) : Res K := do
  let m2 ← rollingMomentIntRun (K := K) T 2 N xs
  let mean ← match kind with
    | .lazy => (do let s ← rollingSumInt T N xs; return fdiv (s.2 : K) (rollingCount s.1 : K))
    | .immediate => (do let s ← immRollingMeanInt T N xs; return .val s.2)
  if rollingCount m2.1 < 2 then .val 0
  else do
    let m ← mean
    let q ← fdiv m2.2 (rollingCount m2.1 : K)
    fdiv ((rollingCount m2.1 : K) * (q - m * m)) ((rollingCount m2.1 : K) - 1)

/-- Members of the set `{rolling_window_plus1, immediate_rolling_mean, immediate_rolling_variance}` (`rolling_mean.hpp:97`,
`rolling_variance.hpp:154-157`). -/
structure RollVarInt (K : Type) where
  b : Ring ℤ
  mean : K
  prevMean : K
  ss : K

/-- One push: `rolling_variance.hpp:121-136`; `added_sample - mean` and `removed_sample - mean` are `double`s. -/
def RollVarInt.push (T : IntTy) (s : RollVarInt K) (x : ℤ) : Res (RollVarInt K) := do
  let b := windowPush s.b x
  let m ← immRollingMeanIntStep T b s.mean x
  let ss := s.ss + ((x : K) - m) * ((x : K) - s.prevMean)
  if b.full then do
    let r ← b.front
    return ⟨b, m, m, preventUnderflow (ss - ((r : K) - m) * ((r : K) - s.prevMean))⟩
  else return ⟨b, m, m, ss⟩

/-- `immediate_rolling_variance(acc)`: `rolling_variance.hpp:138-144`. -/
def immRollingVarianceInt (T : IntTy) (N : ℕ) (xs : List ℤ) : Res K := do
  let s ← xs.foldlM (RollVarInt.push (K := K) T) ⟨windowInit N, 0, 0, 0⟩
  if rollingCount s.b < 2 then .val 0
  else fdiv s.ss ((rollingCount s.b : K) - 1)

/-! ## Tails

The result type of the quantiles is the sample type, which has no NaN; that of the means is `double`, which has. -/

variable [Ceil K] {V : Type}

/-- `tail_quantile.hpp:69-100` for samples of type `T`: no arithmetic on samples. -/
def tailQuantileInt (H : HeapImpl ℕ) (side : Side) (k : ℕ) (x0 : ℤ) (v0 : V) (h : List (Op (ℤ × V) Unit)) (p : K) :
    Res ℤ := do
  let s ← tailRun H side k x0 v0 h
  let n ← tailN side (pushes h).length p
  let t ← tailResult H side s
  tailQuantileResult false n t

/-- `tail_mean.hpp:130-165`: `std::accumulate(..., Sample(0))` adds in the sample type, then `fdiv`. -/
def tailMeanInt (T : IntTy) (H : HeapImpl ℕ) (side : Side) (k : ℕ) (x0 : ℤ) (v0 : V) (h : List (Op (ℤ × V) Unit))
    (p : K) : Res K := do
  let s ← tailRun H side k x0 v0 h
  let n ← tailN side (pushes h).length p
  let t ← tailResult H side s
  if n ≤ t.length then do
    let s ← sumInt T (t.take n)
    fdiv (s : K) (n : K)
  else .nonfinite

/-- The search of the weighted tail estimators (`weighted_tail_mean.hpp:97-121`, `weighted_tail_quantile.hpp:81-105`) with
weights of type `T`: `Weight sum`, compared with the threshold as a `double`. -/
def wtailLoopInt (T : IntTy) (exhausted : Res (ℕ × ℤ)) (threshold : K) (n : ℕ) (sum : ℤ) : List ℤ → Res (ℕ × ℤ)
  | [] => if (sum : K) < threshold then exhausted else .val (n, sum)
  | w :: ws =>
    if (sum : K) < threshold then do
      let s ← T.add sum w
      wtailLoopInt T exhausted threshold (n + 1) s ws
    else .val (n, sum)

/-- `sum_of_weights(args) * (left ? p : 1 - p)`: an integer times a `double` (`weighted_tail_quantile.hpp:78-79`). -/
def wtailThresholdInt (T : IntTy) (side : Side) (weights : List ℤ) (p : K) : Res K := do
  let w ← sumInt T weights
  return (w : K) * tailLevel side p

/-- `weighted_tail_quantile.hpp:75-110` for samples without a NaN. -/
def wtailQuantileInt (T : IntTy) (H : HeapImpl ℕ) (side : Side) (k : ℕ) (x0 v0 : ℤ) (h : List (Op (ℤ × ℤ) Unit)) (p : K) :
    Res ℤ := do
  let s ← tailRun H side k x0 v0 h
  let t ← tailResult H side s
  let v ← tailVariateResult H side s
  let th ← wtailThresholdInt T side ((pushes h).map Prod.snd) p
  let (n, _) ← wtailLoopInt T .thrown th 0 0 v
  if n = 0 then .ub
  else match t[n - 1]? with
    | none => .ub
    | some x => pure x

/-- `weighted_tail_mean.hpp:91-132`, samples of type `S`, weights of type `T`: `std::inner_product(..., weighted_sample(0))`
computes in the type of the product. -/
def wtailMeanInt (S T : IntTy) (H : HeapImpl ℕ) (side : Side) (k : ℕ) (x0 v0 : ℤ) (h : List (Op (ℤ × ℤ) Unit)) (p : K) :
    Res K := do
  let s ← tailRun H side k x0 v0 h
  let t ← tailResult H side s
  let v ← tailVariateResult H side s
  let th ← wtailThresholdInt T side ((pushes h).map Prod.snd) p
  let (n, sum) ← wtailLoopInt T .nonfinite th 0 0 v
  let s ← weightedSumInt S T ((t.zip v).take n)
  fdiv (s : K) (sum : K)

end

end Acc
