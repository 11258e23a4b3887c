import Verif.Model.WTail
import Mathlib.Analysis.SpecialFunctions.Pow.Real

/-!
# Model of the peaks-over-threshold estimators

Paths are relative to `/repo/include/boost/accumulators/statistics/`.

`pw x y` stands for `std::pow(x, y)` in the floating point type; the theorems about the fit hold for every
`pw`, those about quantiles use the real power function.  Intermediate values may be NaN or infinite and are
then stored in members: `mu_`, `sigma2_` and the fit parameters are `Res K`.
Simplification: the construction arguments `sample` and `weight` are absent (`mu_`, `sigma2_`, `w_sum_` start
at 0).
-/

namespace Acc

section
variable {K : Type} [Field K] [LinearOrder K]

/-- `peaks_over_threshold.hpp:132` (`sign`): −1 on the left, 1 on the right. -/
def potSign : Side → K
  | .left => -1
  | .right => 1

/-- `(u_bar, beta_bar, xi_hat)`, the `boost::tuple` returned. -/
abbrev PotFit (K : Type) := Res K × Res K × Res K

/-- `peaks_over_threshold.hpp:173-177` (and `297-302`, `weighted_peaks_over_threshold.hpp:101-105`,
`229-234`): the fit parameters from the mean `mu`, the variance `sigma2`, the threshold `u` and the threshold
probability `tp`. -/
def potParams (pw : K → K → Res K) (u : K) (mu sigma2 tp : Res K) : PotFit K :=
  let tmp : Res K := do
    let m ← mu
    let s ← sigma2
    fdiv ((m - u) * (m - u)) s
  let xi : Res K := do
    let t ← tmp
    pure (1 / 2 * (1 - t))
  let betaHat : Res K := do
    let m ← mu
    let t ← tmp
    pure (1 / 2 * (m - u) * (1 + t))
  let betaBar : Res K := do
    let b ← betaHat
    let t ← tp
    let x ← xi
    let w ← pw (1 - t) x
    pure (b * w)
  let uBar : Res K := do
    let b ← betaBar
    let t ← tp
    let x ← xi
    let w ← pw (1 - t) (-x)
    let q ← fdiv (b * (w - 1)) x
    pure (u - q)
  (uBar, betaBar, xi)

/-- Members of `peaks_over_threshold_impl` (`peaks_over_threshold.hpp:200-205`) and the `count` it depends
on. -/
structure PotSt (K : Type) where
  cnt : ℕ
  nu : ℕ
  mu : Res K
  sigma2 : Res K
  thr : K
  fit : PotFit K
  dirty : Bool

/-- `peaks_over_threshold.hpp:135-143`. -/
def potInit (side : Side) (thr : K) : PotSt K :=
  ⟨0, 0, .val 0, .val 0, potSign side * thr, (.val 0, .val 0, .val 0), true⟩

/-- `peaks_over_threshold.hpp:145-156` (`operator()`), after `count` has been updated. -/
def potPush (side : Side) (s : PotSt K) (x : K) : PotSt K :=
  if potSign side * x > s.thr then
    { s with cnt := s.cnt + 1, dirty := true
             mu := (do let m ← s.mu; pure (m + x))
             sigma2 := (do let v ← s.sigma2; pure (v + x * x))
             nu := s.nu + 1 }
  else { s with cnt := s.cnt + 1, dirty := true }

/-- `peaks_over_threshold.hpp:158-182` (`result`): the running sums are *replaced* by mean and variance. -/
def potQuery (pw : K → K → Res K) (side : Side) (s : PotSt K) : PotSt K × PotFit K :=
  if s.dirty then
    let mu : Res K := do
      let m ← s.mu
      let q ← fdiv m (s.nu : K)
      pure (potSign side * q)
    let sigma2 : Res K := do
      let v ← s.sigma2
      let q ← fdiv v (s.nu : K)
      let m ← mu
      pure (q - m * m)
    let tp := fdiv ((s.cnt - s.nu : ℕ) : K) (s.cnt : K)
    let fit := potParams pw s.thr mu sigma2 tp
    ({ s with mu := mu, sigma2 := sigma2, fit := fit, dirty := false }, fit)
  else (s, s.fit)

/-- A set with `peaks_over_threshold<side>` constructed with `pot_threshold_value = thr`. -/
def potSet (pw : K → K → Res K) (side : Side) (thr : K) : RMachine K Unit (PotSt K) (PotFit K) where
  init := potInit side thr
  push s x := .val (potPush side s x)
  query s _ := .val (potQuery pw side s)

/-- Members of `weighted_peaks_over_threshold_impl` (`weighted_peaks_over_threshold.hpp:126-132`) and the
`sum_of_weights` it depends on. -/
structure WPotSt (K : Type) where
  total : K
  mu : Res K
  sigma2 : Res K
  wsum : K
  thr : K
  fit : PotFit K
  dirty : Bool

/-- `weighted_peaks_over_threshold.hpp:63-73`. -/
def wpotInit (side : Side) (thr : K) : WPotSt K :=
  ⟨0, .val 0, .val 0, 0, potSign side * thr, (.val 0, .val 0, .val 0), true⟩

/-- `weighted_peaks_over_threshold.hpp:75-86` (`operator()`), after `sum_of_weights` has been updated. -/
def wpotPush (side : Side) (s : WPotSt K) (p : K × K) : WPotSt K :=
  if potSign side * p.1 > s.thr then
    { s with total := s.total + p.2, dirty := true
             mu := (do let m ← s.mu; pure (m + p.2 * p.1))
             sigma2 := (do let v ← s.sigma2; pure (v + p.2 * p.1 * p.1))
             wsum := s.wsum + p.2 }
  else { s with total := s.total + p.2, dirty := true }

/-- `weighted_peaks_over_threshold.hpp:88-110` (`result`). -/
def wpotQuery (pw : K → K → Res K) (side : Side) (s : WPotSt K) : WPotSt K × PotFit K :=
  if s.dirty then
    let mu : Res K := do
      let m ← s.mu
      let q ← fdiv m s.wsum
      pure (potSign side * q)
    let sigma2 : Res K := do
      let v ← s.sigma2
      let q ← fdiv v s.wsum
      let m ← mu
      pure (q - m * m)
    let tp := fdiv (s.total - s.wsum) s.total
    let fit := potParams pw s.thr mu sigma2 tp
    ({ s with mu := mu, sigma2 := sigma2, fit := fit, dirty := false }, fit)
  else (s, s.fit)

/-- A set with `weighted_peaks_over_threshold<side>`. -/
def wpotSet (pw : K → K → Res K) (side : Side) (thr : K) :
    RMachine (K × K) Unit (WPotSt K) (PotFit K) where
  init := wpotInit side thr
  push s p := .val (wpotPush side s p)
  query s _ := .val (wpotQuery pw side s)

/-! ### Threshold probability -/

/-- Members of `peaks_over_threshold_prob_impl` (`peaks_over_threshold.hpp:324-328`), the tail cache and the
count it depends on. -/
structure PotProbSt (K V : Type) where
  cnt : ℕ
  tail : TailSt K V
  mu : Res K
  sigma2 : Res K
  tp : K
  fit : PotFit K
  dirty : Bool

/-- `peaks_over_threshold.hpp:229-237`. -/
def potProbInit {V : Type} (k : ℕ) (v0 : V) (tp : K) : PotProbSt K V :=
  ⟨0, tailInit k 0 v0, .val 0, .val 0, tp, (.val 0, .val 0, .val 0), true⟩

/-- `peaks_over_threshold.hpp:239-242` (`operator()`), with the update of the tail cache. -/
def potProbPush {V : Type} (H : HeapImpl ℕ) (side : Side) (s : PotProbSt K V) (p : K × V) :
    Res (PotProbSt K V) := do
  let t ← tailPush H side s.tail p.1 p.2
  pure { s with cnt := s.cnt + 1, tail := t, dirty := true }

/-- The quiet NaN triple (`peaks_over_threshold.hpp:265-269`) or the exception. -/
def potNaN (hasNaN : Bool) : Res (PotFit K) :=
  if hasNaN then .val (.nonfinite, .nonfinite, .nonfinite) else .thrown

variable [FloorRing K]

/-- `peaks_over_threshold.hpp:244-307` (`result`).  `is_dirty_` is cleared before anything else; `mu_` and
`sigma2_` are not reset before the tail is added to them; on the left `threshold_probability_` is replaced by
its complement.  `*(begin + n - 1)` with `n = 0` is undefined behaviour.  An exception leaves the function
with `is_dirty_` cleared; the model ends the history there. -/
def potProbQuery {V : Type} (pw : K → K → Res K) (H : HeapImpl ℕ) (side : Side) (hasNaN : Bool)
    (s : PotProbSt K V) : Res (PotProbSt K V × PotFit K) :=
  if s.dirty then do
    let n ← tailN side s.cnt s.tp
    let tail ← tailResult H side s.tail
    let t' := tailSort H side s.tail
    if n ≥ tail.length then do
      let r ← potNaN hasNaN
      pure ({ s with tail := t', dirty := false }, r)
    else if n = 0 then .ub
    else match tail[n - 1]? with
      | none => .ub
      | some y =>
        let u := y * potSign side
        let mu0 : Res K := do let m ← s.mu; pure ((tail.take n).foldl (· + ·) m)
        let sg0 : Res K := do let v ← s.sigma2; pure ((tail.take n).foldl (fun a x => a + x * x) v)
        let mu : Res K := do
          let m ← mu0
          let q ← fdiv m (n : K)
          pure (potSign side * q)
        let sigma2 : Res K := do
          let v ← sg0
          let q ← fdiv v (n : K)
          let m ← mu
          pure (q - m * m)
        let tp := match side with
          | .left => 1 - s.tp
          | .right => s.tp
        let fit := potParams pw u mu sigma2 (.val tp)
        pure ({ s with tail := t', mu := mu, sigma2 := sigma2, tp := tp, fit := fit, dirty := false }, fit)
  else pure (s, s.fit)

/-- A set with `peaks_over_threshold_prob<side>` constructed with cache size `k` and
`pot_threshold_probability = tp`. -/
def potProbSet {V : Type} (pw : K → K → Res K) (H : HeapImpl ℕ) (side : Side) (hasNaN : Bool) (k : ℕ)
    (v0 : V) (tp : K) : RMachine (K × V) Unit (PotProbSt K V) (PotFit K) where
  init := potProbInit k v0 tp
  push s p := potProbPush H side s p
  query s _ := potProbQuery pw H side hasNaN s

omit [FloorRing K]

/-- The loop of `weighted_peaks_over_threshold.hpp:184-211`: position, accumulated weight, `mu_`, `sigma2_`
so far and the remaining cached (sample, weight) pairs.  The last component tells whether the threshold was
reached; if not, `mu_` and `sigma2_` keep what was added to them. -/
def wpotLoop (threshold : K) (n : ℕ) (sum : K) (mu sigma2 : Res K) :
    List (K × K) → (ℕ × K × Res K × Res K) × Bool
  | [] => ((n, sum, mu, sigma2), !decide (sum < threshold))
  | p :: ps =>
    if sum < threshold then
      wpotLoop threshold (n + 1) (sum + p.2) (do let m ← mu; pure (m + p.2 * p.1))
        (do let v ← sigma2; pure (v + p.2 * p.1 * p.1)) ps
    else ((n, sum, mu, sigma2), true)

/-- Members of `weighted_peaks_over_threshold_prob_impl` (`weighted_peaks_over_threshold.hpp:236-241`), the
tail cache with weights and the sum of weights it depends on. -/
structure WPotProbSt (K : Type) where
  total : K
  tail : TailSt K K
  mu : Res K
  sigma2 : Res K
  tp : K
  fit : PotFit K
  dirty : Bool

/-- `weighted_peaks_over_threshold.hpp:155-164`. -/
def wpotProbInit (k : ℕ) (tp : K) : WPotProbSt K :=
  ⟨0, tailInit k 0 0, .val 0, .val 0, tp, (.val 0, .val 0, .val 0), true⟩

/-- `weighted_peaks_over_threshold.hpp:166-169` (`operator()`), with the update of the tail cache. -/
def wpotProbPush (H : HeapImpl ℕ) (side : Side) (s : WPotProbSt K) (p : K × K) : Res (WPotProbSt K) := do
  let t ← tailPush H side s.tail p.1 p.2
  pure { s with total := s.total + p.2, tail := t, dirty := true }

/-- `weighted_peaks_over_threshold.hpp:171-233` (`result`).  `*(begin + n - 1)` with `n = 0` is undefined
behaviour. -/
def wpotProbQuery (pw : K → K → Res K) (H : HeapImpl ℕ) (side : Side) (hasNaN : Bool)
    (s : WPotProbSt K) : Res (WPotProbSt K × PotFit K) :=
  if s.dirty then do
    let tail ← tailResult H side s.tail
    let ws ← tailVariateResult H side s.tail
    let t' := tailSort H side s.tail
    let r := wpotLoop (s.total * tailLevel side s.tp) 0 0 s.mu s.sigma2 (tail.zip ws)
    if r.2 then
      let n := r.1.1
      let sum := r.1.2.1
      if n = 0 then .ub
      else match tail[n - 1]? with
        | none => .ub
        | some y =>
          let u := y * potSign side
          let mu : Res K := do
            let m ← r.1.2.2.1
            let q ← fdiv m sum
            pure (potSign side * q)
          let sigma2 : Res K := do
            let v ← r.1.2.2.2
            let q ← fdiv v sum
            let m ← mu
            pure (q - m * m)
          let tp := match side with
            | .left => 1 - s.tp
            | .right => s.tp
          let fit := potParams pw u mu sigma2 (.val tp)
          pure ({ s with tail := t', mu := mu, sigma2 := sigma2, tp := tp, fit := fit, dirty := false }, fit)
    else do
      let f ← potNaN hasNaN
      pure ({ s with tail := t', mu := r.1.2.2.1, sigma2 := r.1.2.2.2, dirty := false }, f)
  else pure (s, s.fit)

/-- A set with `weighted_peaks_over_threshold_prob<side>`. -/
def wpotProbSet (pw : K → K → Res K) (H : HeapImpl ℕ) (side : Side) (hasNaN : Bool) (k : ℕ) (tp : K) :
    RMachine (K × K) Unit (WPotProbSt K) (PotFit K) where
  init := wpotProbInit k tp
  push s p := wpotProbPush H side s p
  query s _ := wpotProbQuery pw H side hasNaN s

/-! ### Quantile and tail mean -/

/-- Three consecutive calls of the fit extractor (`pot_quantile.hpp:74-76`): each component is taken from a
call of its own. -/
def potRead {S : Type} (query : S → Res (S × PotFit K)) (s : S) : Res (S × PotFit K) := do
  let r1 ← query s
  let r2 ← query r1.1
  let r3 ← query r2.1
  pure (r3.1, (r1.2.1, r2.2.2.1, r3.2.2.2))

/-- `pot_quantile.hpp:78-81`. -/
def potQuantileValue (pw : K → K → Res K) (side : Side) (fit : PotFit K) (p : K) : Res K := do
  let u ← fit.1
  let b ← fit.2.1
  let x ← fit.2.2
  let q ← fdiv b x
  let w ← pw (tailLevel side p) (-x)
  pure (potSign side * (u + q * (w - 1)))

/-- `pot_tail_mean.hpp:86-91`. -/
def potTailMeanValue (pw : K → K → Res K) (side : Side) (b x quantile : Res K) (p : K) : Res K := do
  let b ← b
  let x ← x
  let q ← quantile
  let c ← fdiv (potSign side * b) (x - 1)
  let w ← pw (tailLevel side p) (-x)
  pure (q - c * w)

/-- `extract::quantile(acc, quantile_probability = p)` on a set with `pot_quantile<side>`
(`pot_quantile.hpp:61-82`); `query` is the fit extractor of the set. -/
def potQuantile {S : Type} (pw : K → K → Res K) (side : Side) (query : S → Res (S × PotFit K)) (s : S)
    (p : K) : Res (S × Res K) := do
  let r ← potRead query s
  pure (r.1, potQuantileValue pw side r.2 p)

/-- `extract::tail_mean(acc, quantile_probability = p)` on a set with `pot_tail_mean<side>`
(`pot_tail_mean.hpp:64-92`): two calls of the fit extractor, then the quantile with three more. -/
def potTailMean {S : Type} (pw : K → K → Res K) (side : Side) (query : S → Res (S × PotFit K)) (s : S)
    (p : K) : Res (S × Res K) := do
  let r1 ← query s
  let r2 ← query r1.1
  let r3 ← potQuantile pw side query r2.1 p
  pure (r3.1, potTailMeanValue pw side r1.2.2.1 r2.2.2.2 r3.2 p)

/-- A set with `pot_quantile<side>` on top of the fit modelled by `M`: the queries are
`extract::quantile(acc, quantile_probability = p)`. -/
def potQuantileSet {X S : Type} (pw : K → K → Res K) (side : Side) (M : RMachine X Unit S (PotFit K)) :
    RMachine X K S (Res K) where
  init := M.init
  push := M.push
  query s p := potQuantile pw side (fun s => M.query s ()) s p

/-- A set with `pot_tail_mean<side>` on top of the fit modelled by `M`. -/
def potTailMeanSet {X S : Type} (pw : K → K → Res K) (side : Side) (M : RMachine X Unit S (PotFit K)) :
    RMachine X K S (Res K) where
  init := M.init
  push := M.push
  query s p := potTailMean pw side (fun s => M.query s ()) s p

end

open Classical in
/-- `std::pow(x, y)` on real numbers: for a negative base only integral exponents have a value; zero to a
negative power is infinite. -/
noncomputable def realPow (x y : ℝ) : Res ℝ :=
  if 0 < x then .val (x ^ y)
  else if x = 0 then (if 0 < y then .val 0 else if y = 0 then .val 1 else .nonfinite)
  else if h : ∃ n : ℤ, (n : ℝ) = y then .val (x ^ h.choose)
  else .nonfinite

end Acc
