import Verif.Model.Basic
import Mathlib.Algebra.Order.Ring.Defs

/-!
# Model of the rolling-window statistics

Paths are relative to `/repo/include/boost/accumulators/statistics/`.
-/

namespace Acc

universe u

/-- `boost::circular_buffer<T>` as its sequence of elements, oldest first, with a fixed capacity
(the ring layout inside Boost.CircularBuffer is not modelled). -/
structure Ring (X : Type u) where
  cap : ℕ
  elems : List X
  deriving Repr, DecidableEq

namespace Ring
variable {X : Type u}

/-- `circular_buffer::push_back`: overwrites the oldest element when full; a buffer of capacity 0
stores nothing. -/
def pushBack (b : Ring X) (x : X) : Ring X :=
  if b.elems.length < b.cap then { b with elems := b.elems ++ [x] }
  else if b.cap = 0 then b
  else { b with elems := b.elems.tail ++ [x] }

/-- `circular_buffer::full`. -/
def full (b : Ring X) : Bool := decide (b.elems.length = b.cap)

/-- `iterator_range::front`: undefined on an empty range. -/
def front (b : Ring X) : Res X :=
  match b.elems with
  | [] => .ub
  | x :: _ => .val x

end Ring

section window
variable {X : Type u}

/-- `rolling_window.hpp:86-89`: a circular buffer of capacity `N + 1`. -/
def windowInit (N : ℕ) : Ring X := ⟨N + 1, []⟩

/-- `rolling_window.hpp:107-111`. -/
def windowPush (b : Ring X) (x : X) : Ring X := b.pushBack x

/-- `rolling_window.hpp:155-159`: the range of `rolling_window_plus1` with its begin advanced by
`full()` (a `bool` used as 0 or 1). -/
def windowResult (b : Ring X) : List X := b.elems.drop (if b.full then 1 else 0)

/-- `rolling_count.hpp:38-42`: `size - full` in `size_t`. -/
def rollingCount (b : Ring X) : ℕ := b.elems.length - (if b.full then 1 else 0)

end window

variable {K : Type u} [Arith K] [DecidableEq K] [LT K] [DecidableLT K]

/-- `rolling_sum.hpp:38-46`; `b` is the window after the current sample was pushed into it. -/
def rollingSumStep (b : Ring K) (s : Res K) (x : K) : Res K := do
  let s ← s
  let s ← if b.full then (do let f ← b.front; return s - f) else (return s)
  return s + x

/-- `rolling_moment.hpp:45-53`. -/
def rollingMomentStep (M : ℕ) (b : Ring K) (s : Res K) (x : K) : Res K := do
  let s ← s
  let s ← if b.full then (do let f ← b.front; return s - mpow f M) else (return s)
  return s + mpow x M

/-- `rolling_moment.hpp:55-59`. -/
def rollingMomentResult (b : Ring K) (s : Res K) : Res K := do
  let s ← s
  fdiv s (rollingCount b : K)

/-- `rolling_mean.hpp:41-45` (lazy): `fdiv(rolling_sum, rolling_count)`. -/
def lazyRollingMeanResult (b : Ring K) (sum : Res K) : Res K := do
  let s ← sum
  fdiv s (rollingCount b : K)

/-- `rolling_mean.hpp:69-87` (immediate). -/
def immRollingMeanStep (b : Ring K) (mean : Res K) (x : K) : Res K := do
  let m ← mean
  if b.full then do
    let f ← b.front
    if f > x then (do let d ← fdiv (f - x) (rollingCount b : K); return m - d)
    else if f < x then (do let d ← fdiv (x - f) (rollingCount b : K); return m + d)
    else return m
  else
    if m > x then (do let d ← fdiv (m - x) (rollingCount b : K); return m - d)
    else if m < x then (do let d ← fdiv (x - m) (rollingCount b : K); return m + d)
    else return m

/-- `rolling_variance.hpp:57-64` (lazy).  The mean is read before the early return, but its value is
not used there. -/
def lazyRollingVarianceResult (b : Ring K) (m2 mean : Res K) : Res K :=
  if rollingCount b < 2 then .val 0
  else do
    let m ← mean
    let m2 ← m2
    fdiv ((rollingCount b : K) * (m2 - m * m)) ((rollingCount b : K) - 1)

/-- Members of `immediate_rolling_variance_impl` (`rolling_variance.hpp:154-157`). -/
structure RollVar (K : Type u) where
  prevMean : Res K
  ss : Res K

/-- `rolling_variance.hpp:114-119`. -/
def RollVar.init (x0 : K) : RollVar K := ⟨fdiv x0 1, fdiv x0 1⟩

/-- `rolling_variance.hpp:159-163`: `prevent_underflow` for arithmetic types. -/
def preventUnderflow (s : K) : K := if s < 0 then 0 else s

/-- `rolling_variance.hpp:121-136`; `mean` is the extracted `rolling_mean` after the current sample. -/
def RollVar.step (b : Ring K) (mean : Res K) (s : RollVar K) (x : K) : RollVar K where
  ss := do
    let m ← mean
    let p ← s.prevMean
    let ss ← s.ss
    let ss := ss + (x - m) * (x - p)
    if b.full then do
      let r ← b.front
      return preventUnderflow (ss - (r - m) * (r - p))
    else return ss
  prevMean := mean

/-- `rolling_variance.hpp:138-144`. -/
def RollVar.result (b : Ring K) (s : RollVar K) : Res K :=
  if rollingCount b < 2 then .val 0
  else do
    let ss ← s.ss
    fdiv ss ((rollingCount b : K) - 1)

/-- Which variant provides `rolling_mean`. -/
inductive RollMeanKind where
  | lazy
  | immediate
  deriving Repr, DecidableEq

/-- A set with all rolling accumulators.  (In a real set only one variant of the mean is present;
`kind` says which one `rolling_mean(args)` finds.) -/
structure RollSt (K : Type u) where
  b : Ring K
  sum : Res K
  moment : ℕ → Res K
  imean : Res K
  var : RollVar K

/-- Construction with `window_size = N` and initial sample `x0`
(`rolling_sum.hpp:33-36`, `rolling_mean.hpp:63-67`, `rolling_moment.hpp:39-43`). -/
def RollSt.init (N : ℕ) (x0 : K) : RollSt K where
  b := windowInit N
  sum := .val x0
  moment := fun _ => .val x0
  imean := fdiv x0 1
  var := RollVar.init x0

/-- Extraction of `rolling_mean`. -/
def RollSt.mean (kind : RollMeanKind) (s : RollSt K) : Res K :=
  match kind with
  | .lazy => lazyRollingMeanResult s.b s.sum
  | .immediate => s.imean

/-- One `operator()` of the set, dependencies first: window, sum, moments, mean, variance. -/
def RollSt.push (kind : RollMeanKind) (s : RollSt K) (x : K) : RollSt K :=
  let b := windowPush s.b x
  let sum := rollingSumStep b s.sum x
  let moment := fun M => rollingMomentStep M b (s.moment M) x
  let imean := immRollingMeanStep b s.imean x
  let mean := match kind with
    | .lazy => lazyRollingMeanResult b sum
    | .immediate => imean
  { b := b, sum := sum, moment := moment, imean := imean, var := s.var.step b mean x }

/-- The set after a stream. -/
def rollRun (kind : RollMeanKind) (N : ℕ) (x0 : K) (xs : List K) : RollSt K :=
  xs.foldl (RollSt.push kind) (RollSt.init N x0)

end Acc
