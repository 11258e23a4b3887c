import Verif.Model.Tail

/-!
# Model of the weighted order-statistics tail estimators

Paths are relative to `/repo/include/boost/accumulators/statistics/`.

`V` is the type of what the set caches along with every sample and `wt : V → K` reads the weight out of it:
`V = K` for a set with `tail_weights` only, `V = List K × K` for a set that also has a `tail_variate` of
vector type.
-/

namespace Acc

section
variable {K : Type} [Arith K] [DecidableEq K] [LT K] [DecidableLT K] {V : Type}

/-- The search shared by all weighted tail estimators (`weighted_tail_quantile.hpp:81-105`,
`weighted_tail_mean.hpp:97-121`, `weighted_tail_variate_means.hpp:123-150`): `n` and `sum` so far, the
remaining cached weights.  `exhausted` is the outcome of the branch taken when the cache runs out. -/
def wtailLoop (exhausted : Res (ℕ × K)) (threshold : K) (n : ℕ) (sum : K) : List K → Res (ℕ × K)
  | [] => if sum < threshold then exhausted else .val (n, sum)
  | w :: ws => if sum < threshold then wtailLoop exhausted threshold (n + 1) (sum + w) ws
      else .val (n, sum)

/-- `weighted_tail_quantile.hpp:75-110`: `*(begin + n - 1)`, an access before the beginning for `n = 0`. -/
def wtailQuantileResult (hasNaN : Bool) (threshold : K) (tail : List K) (weights : List K) : Res K := do
  let (n, _) ← wtailLoop (nanOrThrow hasNaN) threshold 0 0 weights
  if n = 0 then .ub
  else match tail[n - 1]? with
    | none => .ub
    | some x => pure x

/-- `std::inner_product(x, x + n, w, init)`: reading outside either range is undefined behaviour. -/
def innerProduct (init : K) : ℕ → List K → List K → Res K
  | 0, _, _ => .val init
  | n + 1, x :: xs, w :: ws => innerProduct (init + x * w) n xs ws
  | _ + 1, _, _ => .ub

/-- `weighted_tail_mean.hpp:91-132`. -/
def wtailMeanResult (hasNaN : Bool) (threshold : K) (tail : List K) (weights : List K) : Res K := do
  let (n, sum) ← wtailLoop (nanOrThrow hasNaN) threshold 0 0 weights
  let s ← innerProduct 0 n tail weights
  fdiv s sum

/-- `std::inner_product` over vectors with `plus` and `multiply_and_promote_to_double`
(`weighted_tail_variate_means.hpp:45-49`, `numeric/functional/vector.hpp:75-89`, `126-137`). -/
def vecInnerProduct (init : List K) : ℕ → List (List K) → List K → Res (List K)
  | 0, _, _ => .val init
  | n + 1, v :: vs, w :: ws => do
    let s ← vecAdd init (v.map (· * w))
    vecInnerProduct s n vs ws
  | _ + 1, _, _ => .ub

/-- `weighted_tail_variate_means.hpp:117-180`.  When the cache runs out, the branch for types with a quiet
NaN fills `tail_means_` and *continues the loop*, whose condition has not changed: it never ends.
`begin()->size()` of an empty cache is undefined behaviour.  `sum * 1.` is `sum`; `mean` is the result of
`non_coherent_tail_mean`. -/
def wtailVariateMeansOf (relative hasNaN : Bool) (threshold : K) (mean : Res K)
    (variates : List (List K)) (weights : List K) : Res (List K) := do
  let (n, sum) ← wtailLoop (if hasNaN then .diverges else .thrown) threshold 0 0 weights
  match variates with
  | [] => .ub
  | v :: _ => do
    let s ← vecInnerProduct (List.replicate v.length 0) n variates weights
    if relative then do
      let m ← mean
      vecDiv (sum * m) s
    else vecDiv sum s

/-- The same, with the weighted tail mean computed from the tail. -/
def wtailVariateMeansResult (relative hasNaN : Bool) (threshold : K) (tail : List K)
    (variates : List (List K)) (weights : List K) : Res (List K) :=
  wtailVariateMeansOf relative hasNaN threshold (wtailMeanResult hasNaN threshold tail weights) variates weights

/-- `sum_of_weights(args) * (left ? p : 1 - p)` (`weighted_tail_quantile.hpp:78-79`); the weights are added up one
after the other (`sum.hpp:36-52`). -/
def wtailThreshold (side : Side) (weights : List K) (p : K) : K := weights.foldl (· + ·) 0 * tailLevel side p

/-- `extract::quantile(acc, quantile_probability = p)` on a set with `weighted_tail_quantile<side>`. -/
def wtailQuantile (H : HeapImpl ℕ) (side : Side) (hasNaN : Bool) (wt : V → K) (k : ℕ) (x0 : K) (v0 : V)
    (h : List (Op (K × V) Unit)) (p : K) : Res K := do
  let s ← tailRun H side k x0 v0 h
  let t ← tailResult H side s
  let v ← tailVariateResult H side s
  wtailQuantileResult hasNaN (wtailThreshold side ((pushes h).map fun q => wt q.2) p) t (v.map wt)

/-- `extract::non_coherent_tail_mean(acc, quantile_probability = p)` on a weighted set. -/
def wtailMean (H : HeapImpl ℕ) (side : Side) (hasNaN : Bool) (wt : V → K) (k : ℕ) (x0 : K) (v0 : V)
    (h : List (Op (K × V) Unit)) (p : K) : Res K := do
  let s ← tailRun H side k x0 v0 h
  let t ← tailResult H side s
  let v ← tailVariateResult H side s
  wtailMeanResult hasNaN (wtailThreshold side ((pushes h).map fun q => wt q.2) p) t (v.map wt)

/-- `extract::tail_variate_means` / `relative_tail_variate_means` on a weighted set. -/
def wtailVariateMeans (H : HeapImpl ℕ) (side : Side) (relative hasNaN : Bool) (k : ℕ) (x0 : K)
    (v0 : List K × K) (h : List (Op (K × (List K × K)) Unit)) (p : K) : Res (List K) := do
  let s ← tailRun H side k x0 v0 h
  let t ← tailResult H side s
  let v ← tailVariateResult H side s
  wtailVariateMeansResult relative hasNaN (wtailThreshold side ((pushes h).map fun q => q.2.2) p) t
    (v.map Prod.fst) (v.map Prod.snd)

end

end Acc
