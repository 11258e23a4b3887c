import Verif.Model.Res
import Verif.Model.Heap
import Verif.Model.History
import Verif.Spec.Order
import Mathlib.Algebra.Order.Floor.Ring
import Mathlib.Algebra.Order.Field.Basic

/-!
# Model of the tail cache and of the order-statistics estimators built on it

Paths are relative to `/repo/include/boost/accumulators/statistics/`.
-/

namespace Acc


section cache
variable {α : Type} [LT α] [DecidableLT α] {V : Type}

/-- `tail.hpp:147-153`: the predicate of the cache, `std::greater` for the right tail and
`std::less` for the left tail. -/
def tailPred : Side → α → α → Bool
  | .right, a, b => decide (b < a)
  | .left, a, b => decide (a < b)

/-- `tail.hpp:250-269` (`indirect_cmp`): compare the samples at two indices.  Reading outside
`samples` would be undefined behaviour; `tailAssign` and `tailPush` below check that this cannot
happen (indices in the heap are always in range, `TailSt.Inv`), so the value chosen here for
out-of-range indices is never used. -/
def tailCmp (side : Side) (samples : List α) (i j : ℕ) : Bool :=
  match samples[i]?, samples[j]? with
  | some a, some b => tailPred side a b
  | some _, none => true
  | none, _ => false

/-- Members of `tail_impl` (`tail.hpp:281-284`) together with the `variates` member of the
`tail_variate_impl`s of the set (`tail_variate.hpp:81`): `V` is the type of everything cached along
with a sample (a variate, a weight, or several of them as a tuple). -/
structure TailSt (α V : Type) where
  isSorted : Bool
  indices : List ℕ
  samples : List α
  variates : List V

/-- `tail.hpp:161-168`, `tail_variate.hpp:42-46`: `cache_size` copies of the initial sample (and
variate); no index is in use. -/
def tailInit (k : ℕ) (x0 : α) (v0 : V) : TailSt α V :=
  ⟨false, [], List.replicate k x0, List.replicate k v0⟩

/-- `tail.hpp:237-246` (`assign`) and `tail_variate.hpp:48-52` (`assign`, reached through
`visit_if<is_tail_variate_feature>`): overwrite a slot and push its index into the heap.
`BOOST_ASSERT(index < samples.size())` is a precondition. -/
def tailAssign (H : HeapImpl ℕ) (side : Side) (s : TailSt α V) (x : α) (v : V) (index : ℕ) :
    Res (TailSt α V) :=
  if index < s.samples.length ∧ index < s.variates.length then
    let samples := s.samples.set index x
    .val ⟨false, H.push (tailCmp side samples) s.indices, samples, s.variates.set index v⟩
  else .ub

/-- `tail.hpp:190-203` (`operator()`).  `indices[0]` of an empty vector is undefined behaviour. -/
def tailPush (H : HeapImpl ℕ) (side : Side) (s : TailSt α V) (x : α) (v : V) : Res (TailSt α V) :=
  if s.indices.length < s.samples.length then
    tailAssign H side { s with indices := s.indices ++ [s.indices.length] } x v s.indices.length
  else
    match s.indices with
    | [] => .ub
    | i0 :: _ =>
      match s.samples[i0]? with
      | none => .ub
      | some y =>
        if tailPred side x y then
          let idx := H.pop (tailCmp side s.samples) s.indices
          match idx.getLast? with
          | none => .ub
          | some i => tailAssign H side { s with indices := idx } x v i
        else .val s

/-- `tail.hpp:207-215`: the lazy sort done by `result()`. -/
def tailSort (H : HeapImpl ℕ) (side : Side) (s : TailSt α V) : TailSt α V :=
  if s.isSorted then s
  else { s with isSorted := true
                indices := (H.sort (tailCmp side s.samples) s.indices).reverse }

/-- Reading a permuted slot range; an index outside the container is undefined behaviour. -/
def readSlots {β : Type} (slots : List β) : List ℕ → Res (List β)
  | [] => .val []
  | i :: is =>
    match slots[i]? with
    | none => .ub
    | some b => do
      let bs ← readSlots slots is
      pure (b :: bs)

/-- `tail.hpp:205-222`, `57-69` (`make_tail_range`): the samples in *reverse* index order. -/
def tailResult (H : HeapImpl ℕ) (side : Side) (s : TailSt α V) : Res (List α) :=
  let s := tailSort H side s
  readSlots s.samples s.indices.reverse

/-- `tail_variate.hpp:54-71`: `tail(args)` is called first (and sorts), then the variates are read
through the same index range. -/
def tailVariateResult (H : HeapImpl ℕ) (side : Side) (s : TailSt α V) : Res (List V) :=
  let s := tailSort H side s
  readSlots s.variates s.indices.reverse

/-- One call on a set with a tail cache: a push, or an extraction that reads the tail.  Every
extractor built on the tail evaluates `tail(args)` and has no other effect on the cache. -/
def tailStep (H : HeapImpl ℕ) (side : Side) (s : TailSt α V) : Op (α × V) Unit → Res (TailSt α V)
  | .push p => tailPush H side s p.1 p.2
  | .query _ => .val (tailSort H side s)

/-- State after a history of calls. -/
def tailExec (H : HeapImpl ℕ) (side : Side) (s : TailSt α V) :
    List (Op (α × V) Unit) → Res (TailSt α V)
  | [] => .val s
  | o :: os => do
    let s' ← tailStep H side s o
    tailExec H side s' os

/-- A freshly constructed set with cache size `k` after a history of calls. -/
def tailRun (H : HeapImpl ℕ) (side : Side) (k : ℕ) (x0 : α) (v0 : V)
    (h : List (Op (α × V) Unit)) : Res (TailSt α V) :=
  tailExec H side (tailInit k x0 v0) h

/-- `extract::tail(acc)` after history `h`. -/
def extractTail (H : HeapImpl ℕ) (side : Side) (k : ℕ) (x0 : α) (v0 : V)
    (h : List (Op (α × V) Unit)) : Res (List α) := do
  let s ← tailRun H side k x0 v0 h
  tailResult H side s

/-- `extract::tail_variate(acc)` / `extract::tail_weights(acc)` after history `h`. -/
def extractTailVariate (H : HeapImpl ℕ) (side : Side) (k : ℕ) (x0 : α) (v0 : V)
    (h : List (Op (α × V) Unit)) : Res (List V) := do
  let s ← tailRun H side k x0 v0 h
  tailVariateResult H side s

end cache

/-- `std::ceil`, exact arithmetic. -/
instance {K : Type} [Field K] [LinearOrder K] [FloorRing K] : Ceil K := ⟨fun x => ⌈x⌉⟩

@[simp] theorem ceilZ_eq {K : Type} [Field K] [LinearOrder K] [FloorRing K] (x : K) : ceilZ x = ⌈x⌉ := rfl

section estimators
variable {K : Type} [Arith K] [DecidableEq K] [Ceil K]

/-- The `std::numeric_limits<T>::has_quiet_NaN` branch: NaN for floating point types, an exception
otherwise (e.g. `tail_quantile.hpp:86-99`). -/
def nanOrThrow {β : Type} (hasNaN : Bool) : Res β := if hasNaN then .nonfinite else .thrown

/-- The level used by all tail estimators: `p` on the left, `1 - p` on the right
(`tail_quantile.hpp:75`). -/
def tailLevel : Side → K → K
  | .left, p => p
  | .right, p => 1 - p

/-- `static_cast<std::size_t>(std::ceil(cnt * level))` (`tail_quantile.hpp:73-77`,
`tail_mean.hpp:76-80`, `135-139`, `tail_variate_means.hpp:95-99`); converting a negative value to
`size_t` is undefined behaviour. -/
def tailN (side : Side) (cnt : ℕ) (p : K) : Res ℕ :=
  let c := ceilZ ((cnt : K) * tailLevel side p)
  if c < 0 then .ub else .val c.toNat

/-- `tail_quantile.hpp:69-100`: `n < tail.size()` returns `*(begin + n - 1)`; with `n = 0` that is
an access before the beginning. -/
def tailQuantileResult {α : Type} (hasNaN : Bool) (n : ℕ) (tail : List α) : Res α :=
  if n < tail.length then
    if n = 0 then .ub
    else match tail[n - 1]? with
      | none => .ub
      | some x => .val x
  else nanOrThrow hasNaN

/-- `tail_mean.hpp:130-165` (`non_coherent_tail_mean_impl::result`). -/
def nonCoherentTailMeanResult (hasNaN : Bool) (n : ℕ) (tail : List K) : Res K :=
  if n ≤ tail.length then fdiv ((tail.take n).foldl (· + ·) 0) (n : K)
  else nanOrThrow hasNaN

/-- `tail_mean.hpp:71-90` (`coherent_tail_mean_impl::result`), with the operator precedence the
compiler sees: `left ? p : ((1 - p) - n/count)`.  `nctm` and `quantile` are the results of `non_coherent_tail_mean` and
of whatever provides `quantile` in the set. -/
def coherentTailMeanOf (side : Side) (cnt n : ℕ) (p : K) (nctm quantile : Res K) : Res K := do
  let nctm ← nctm
  let q ← quantile
  let qn ← fdiv q (n : K)
  let r ← fdiv (n : K) (cnt : K)
  let factor := match side with
    | .left => p
    | .right => 1 - p - r
  pure (nctm + qn * factor)

/-- The same, with the non-coherent tail mean computed from the tail. -/
def coherentTailMeanResult (side : Side) (hasNaN : Bool) (cnt n : ℕ) (p : K) (quantile : Res K)
    (tail : List K) : Res K :=
  coherentTailMeanOf side cnt n p (nonCoherentTailMeanResult hasNaN n tail) quantile

/-- Componentwise sum of two vectors (`numeric/functional/vector.hpp:124-137`, sized by the left
operand; reading beyond the right operand is undefined behaviour). -/
def vecAdd : List K → List K → Res (List K)
  | [], _ => .val []
  | _ :: _, [] => .ub
  | a :: as, b :: bs => do
    let cs ← vecAdd as bs
    pure ((a + b) :: cs)

/-- `std::accumulate(first, last, init, numeric::plus)` over vectors. -/
def vecAccumulate (init : List K) : List (List K) → Res (List K)
  | [] => .val init
  | v :: vs => do
    let s ← vecAdd init v
    vecAccumulate s vs

/-- `std::transform` with `divides` by a common factor. -/
def vecDiv (factor : K) : List K → Res (List K)
  | [] => .val []
  | a :: as => do
    let q ← fdiv a factor
    let qs ← vecDiv factor as
    pure (q :: qs)

/-- `tail_variate_means.hpp:90-147`: absolute (`relative = false`) and relative tail variate means; `nctm` is the result
of `non_coherent_tail_mean`.  `begin()->size()` of an empty tail is undefined behaviour. -/
def tailVariateMeansOf (relative hasNaN : Bool) (n : ℕ) (nctm : Res K) (tail : List K)
    (variates : List (List K)) : Res (List K) :=
  match variates with
  | [] => .ub
  | v :: _ =>
    if n < tail.length then do
      let s ← vecAccumulate (List.replicate v.length 0) (variates.take n)
      if relative then do
        let nctm ← nctm
        vecDiv ((n : K) * nctm) s
      else vecDiv (n : K) s
    else nanOrThrow hasNaN

/-- The same, with the non-coherent tail mean computed from the tail. -/
def tailVariateMeansResult (relative hasNaN : Bool) (n : ℕ) (tail : List K)
    (variates : List (List K)) : Res (List K) :=
  tailVariateMeansOf relative hasNaN n (nonCoherentTailMeanResult hasNaN n tail) tail variates

end estimators

/-! ### Whole sets

`count(args)` is the number of samples pushed. Simplification: no wrap-around of `size_t`
(`C01_count` treats that). -/

section sets
variable {K : Type} [Arith K] [DecidableEq K] [LT K] [DecidableLT K] [Ceil K] {V : Type}

/-- `extract::quantile(acc, quantile_probability = p)` on a set with `tail_quantile<side>` after
history `h`. -/
def tailQuantile (H : HeapImpl ℕ) (side : Side) (hasNaN : Bool) (k : ℕ) (x0 : K) (v0 : V)
    (h : List (Op (K × V) Unit)) (p : K) : Res K := do
  let s ← tailRun H side k x0 v0 h
  let n ← tailN side (pushes h).length p
  let t ← tailResult H side s
  tailQuantileResult hasNaN n t

/-- `extract::non_coherent_tail_mean(acc, quantile_probability = p)`. -/
def nonCoherentTailMean (H : HeapImpl ℕ) (side : Side) (hasNaN : Bool) (k : ℕ) (x0 : K) (v0 : V)
    (h : List (Op (K × V) Unit)) (p : K) : Res K := do
  let s ← tailRun H side k x0 v0 h
  let n ← tailN side (pushes h).length p
  let t ← tailResult H side s
  nonCoherentTailMeanResult hasNaN n t

/-- `extract::coherent_tail_mean(acc, quantile_probability = p)` with `tail_quantile<side>` as the
provider of `quantile`. -/
def coherentTailMean (H : HeapImpl ℕ) (side : Side) (hasNaN : Bool) (k : ℕ) (x0 : K) (v0 : V)
    (h : List (Op (K × V) Unit)) (p : K) : Res K := do
  let s ← tailRun H side k x0 v0 h
  let n ← tailN side (pushes h).length p
  let t ← tailResult H side s
  coherentTailMeanResult side hasNaN (pushes h).length n p (tailQuantileResult hasNaN n t) t

/-- `extract::tail_variate_means` / `relative_tail_variate_means`. -/
def tailVariateMeans (H : HeapImpl ℕ) (side : Side) (relative hasNaN : Bool) (k : ℕ) (x0 : K)
    (v0 : List K) (h : List (Op (K × List K) Unit)) (p : K) : Res (List K) := do
  let s ← tailRun H side k x0 v0 h
  let n ← tailN side (pushes h).length p
  let t ← tailResult H side s
  let v ← tailVariateResult H side s
  tailVariateMeansResult relative hasNaN n t v

end sets

end Acc
