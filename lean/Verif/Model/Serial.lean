import Verif.Model.Rolling
import Verif.Model.Weighted
import Verif.Model.Median
import Verif.Model.Pot

/-!
# Model of serialization

`accumulator_set::serialize` (`framework/accumulator_set.hpp:448-453`, `103-119`) calls `serialize(ar, version)`
of every accumulator in the order of the list.  The body of such a function is a sequence of `ar & member`: on a
saving archive each appends the member, on a loading archive each overwrites it.  The same function serves for
both, so a model of it is a `Ser`: the two readings of one sequence of members.

An archive is a sequence of tokens.  The library Boost.Serialization and the textual or binary form of the numbers
are not modelled: a token is read back as it was written (including NaN).  `std::vector` and `boost::array` are
written as their length followed by the elements.

The paths below are relative to `/repo/include/boost/accumulators/statistics/`.  Accumulators with an empty
`serialize` (`mean.hpp:47`, `variance.hpp:59`, `skewness.hpp:71`, `kurtosis.hpp:69`, `rolling_mean.hpp:49`,
`rolling_variance.hpp:68`, `rolling_count.hpp:46`, `rolling_window.hpp:163`, `tail_quantile.hpp:104`,
`tail_mean.hpp:94`, `169`, `median.hpp:54`) have no members and do not occur.  Not serializable at all (no
`serialize`, or a private one, so that serializing the set does not compile): `weighted_mean` (lazy),
`lazy_weighted_variance`, `weighted_skewness`, `weighted_kurtosis`, `error_of`, `tail_variate` and everything
depending on it, `weighted_peaks_over_threshold_prob`.
-/

namespace Acc

/-- What an archive contains. -/
inductive Tok (K : Type) where
  | nat (n : ℕ)
  | bool (b : Bool)
  | num (r : Res K)
deriving DecidableEq, Repr

/-- How a member of type `A` is written and read. -/
structure Codec (K A : Type) where
  enc : A → List (Tok K)
  dec : List (Tok K) → Option (A × List (Tok K))

namespace Codec
variable {K A B : Type}

/-- An integral member. -/
def nat : Codec K ℕ where
  enc n := [.nat n]
  dec
    | .nat n :: l => some (n, l)
    | _ => none

/-- A `bool` member. -/
def bool : Codec K Bool where
  enc b := [.bool b]
  dec
    | .bool b :: l => some (b, l)
    | _ => none

/-- A floating point member that may be NaN or infinite. -/
def res : Codec K (Res K) where
  enc r := [.num r]
  dec
    | .num r :: l => some (r, l)
    | _ => none

/-- A floating point member. -/
def num : Codec K K where
  enc x := [.num (.val x)]
  dec
    | .num (.val x) :: l => some (x, l)
    | _ => none

/-- Two members (also `std::pair`). -/
def pair (c : Codec K A) (d : Codec K B) : Codec K (A × B) where
  enc p := c.enc p.1 ++ d.enc p.2
  dec l := do
    let (a, l) ← c.dec l
    let (b, l) ← d.dec l
    pure ((a, b), l)

/-- `n` elements. -/
def decMany (c : Codec K A) : ℕ → List (Tok K) → Option (List A × List (Tok K))
  | 0, l => some ([], l)
  | n + 1, l => do
    let (a, l) ← c.dec l
    let (as, l) ← decMany c n l
    pure (a :: as, l)

/-- A container: the number of elements, then the elements. -/
def list (c : Codec K A) : Codec K (List A) where
  enc as := .nat as.length :: as.flatMap c.enc
  dec
    | .nat n :: l => c.decMany n l
    | _ => none

/-- `rolling_window.hpp:29-54`, `circular_buffer`: capacity, size, and the elements in two consecutive parts
(`array_one`, `array_two`); `split` is where the ring buffer wraps around.  Reading sets the capacity, clears the
buffer, and inserts the elements at the beginning; more elements than the capacity are not inserted by
`circular_buffer`, which does not happen (`none`). -/
def ring (c : Codec K A) (split : List A → ℕ) : Codec K (Ring A) where
  enc b := .nat b.cap :: .nat b.elems.length ::
    ((b.elems.take (split b.elems)).flatMap c.enc ++ (b.elems.drop (split b.elems)).flatMap c.enc)
  dec
    | .nat cap :: .nat n :: l => do
      let (as, l) ← c.decMany n l
      if as.length ≤ cap then pure (⟨cap, as⟩, l) else none
    | _ => none

end Codec

/-- The function `serialize` of an accumulator or a set with state `S`, read as saving and as loading. -/
structure Ser (K S : Type) where
  save : S → List (Tok K)
  load : List (Tok K) → S → Option (S × List (Tok K))

namespace Ser
variable {K S T A : Type}

/-- An empty body. -/
def nil : Ser K S := ⟨fun _ => [], fun l s => some (s, l)⟩

/-- `ar & member`. -/
def member (c : Codec K A) (get : S → A) (set : S → A → S) : Ser K S where
  save s := c.enc (get s)
  load l s := do
    let (a, l) ← c.dec l
    pure (set s a, l)

/-- One statement after the other; one accumulator after the other. -/
def andThen (p q : Ser K S) : Ser K S where
  save s := p.save s ++ q.save s
  load l s := do
    let (s, l) ← p.load l s
    q.load l s

/-- The accumulators of a part of a set. -/
def part (p : Ser K T) (get : S → T) (set : S → T → S) : Ser K S where
  save s := p.save (get s)
  load l s := do
    let (t, l) ← p.load l (get s)
    pure (set s t, l)

/-- A sequence of statements. -/
def all (ps : List (Ser K S)) : Ser K S := ps.foldr andThen nil

/-- Save one set and load the result into another one, reading all of it. -/
def restore (p : Ser K S) (saved target : S) : Option S :=
  match p.load (p.save saved) target with
  | some (s, []) => some s
  | _ => none

end Ser

section basic
variable {K : Type}
open Ser Codec

/-- `sum.hpp:54-58`, `weighted_sum.hpp:59-63`, `min.hpp:52-56`, `max.hpp:52-56`: the only member of an accumulator
whose state is a number. -/
def numSer : Ser K K := member num (fun s => s) (fun _ a => a)

/-- `sum_kahan.hpp:70-75`, `weighted_sum_kahan.hpp:72-77`. -/
def kahanSer : Ser K (Kahan K) :=
  all [member num Kahan.sum (fun s a => { s with sum := a }),
    member num Kahan.compensation (fun s a => { s with compensation := a })]

/-- `count.hpp:47-51`, `sum.hpp:54-58`, `mean.hpp:46-47`. -/
def countSumSer : Ser K (CountSum K) :=
  all [member nat CountSum.cnt (fun s a => { s with cnt := a }),
    member num CountSum.sum (fun s a => { s with sum := a })]

/-- `count.hpp:47-51`, `mean.hpp:78-82`. -/
def countMeanSer : Ser K (CountMean K) :=
  all [member nat CountMean.cnt (fun s a => { s with cnt := a }),
    member res CountMean.mean (fun s a => { s with mean := a })]

/-- `count.hpp:47-51`, `moment.hpp:79-83`. -/
def momentSer : Ser K (MomentSt K) :=
  all [member nat MomentSt.cnt (fun s a => { s with cnt := a }),
    member num MomentSt.sum (fun s a => { s with sum := a })]

/-- The mean provider, `count.hpp:47-51`, `variance.hpp:121-125`. -/
def varianceSer {S : Type} (m : Ser K S) : Ser K (VarianceSt S K) :=
  all [part m VarianceSt.m (fun s a => { s with m := a }),
    member nat VarianceSt.cnt (fun s a => { s with cnt := a }),
    member res VarianceSt.var (fun s a => { s with var := a })]

/-- The means, `count.hpp:47-51`, `covariance.hpp:156-160`. -/
def covSer {S T : Type} (mx : Ser K S) (my : Ser K T) : Ser K (CovSt S T K) :=
  all [part mx CovSt.mx (fun s a => { s with mx := a }), part my CovSt.my (fun s a => { s with my := a }),
    member nat CovSt.cnt (fun s a => { s with cnt := a }),
    member res CovSt.cov (fun s a => { s with cov := a })]

/-- `sum.hpp:54-58` for `sum_of_weights`, `weighted_mean.hpp:101-105` (immediate). -/
def wmeanSer : Ser K (WMean K) :=
  all [member num WMean.sumW (fun s a => { s with sumW := a }),
    member res WMean.mean (fun s a => { s with mean := a })]

/-- `sum.hpp:54-58`, `weighted_moment.hpp:64-68`. -/
def wmomentSer : Ser K (WMomentSt K) :=
  all [member num WMomentSt.sumW (fun s a => { s with sumW := a }),
    member num WMomentSt.sum (fun s a => { s with sum := a })]

/-- The mean provider, `sum.hpp:54-58`, `count.hpp:47-51`, `weighted_variance.hpp:107-111`. -/
def wvarianceSer {S : Type} (m : Ser K S) : Ser K (WVarianceSt S K) :=
  all [part m WVarianceSt.m (fun s a => { s with m := a }),
    member num WVarianceSt.sumW (fun s a => { s with sumW := a }),
    member nat WVarianceSt.cnt (fun s a => { s with cnt := a }),
    member res WVarianceSt.var (fun s a => { s with var := a })]

/-- The means, `sum.hpp:54-58`, `count.hpp:47-51`, `weighted_covariance.hpp:101-105`. -/
def wcovSer {S T : Type} (mx : Ser K S) (my : Ser K T) : Ser K (WCovSt S T K) :=
  all [part mx WCovSt.mx (fun s a => { s with mx := a }), part my WCovSt.my (fun s a => { s with my := a }),
    member num WCovSt.sumW (fun s a => { s with sumW := a }),
    member nat WCovSt.cnt (fun s a => { s with cnt := a }),
    member res WCovSt.cov (fun s a => { s with cov := a })]

end basic

section rolling
variable {K : Type}
open Ser Codec

/-- Members of the rolling accumulators of one set: `rolling_window.hpp:125-129`, `rolling_sum.hpp:55-59`,
`rolling_mean.hpp:96-100`, `rolling_moment.hpp:62-66` for the orders `ms` in the set, `rolling_variance.hpp:147-152`.
(A real set contains some of these.) -/
def rollSer (split : List K → ℕ) (ms : List ℕ) : Ser K (RollSt K) :=
  andThen
    (all [member (ring num split) RollSt.b (fun s a => { s with b := a }),
      member res RollSt.sum (fun s a => { s with sum := a })])
    (andThen
      (all (ms.map fun M => member res (fun s => s.moment M)
        (fun s a => { s with moment := Function.update s.moment M a })))
      (all [member res RollSt.imean (fun s a => { s with imean := a }),
        member res (fun s => s.var.prevMean) (fun s a => { s with var := { s.var with prevMean := a } }),
        member res (fun s => s.var.ss) (fun s a => { s with var := { s.var with ss := a } })]))

end rolling

section estimators
variable {K : Type}
open Ser Codec

/-- `tail.hpp:273-279`, for a set without `tail_variate`s (their `serialize` is private, `tail_variate.hpp:73-78`). -/
def tailSer : Ser K (TailSt K Unit) :=
  all [member bool TailSt.isSorted (fun s a => { s with isSorted := a }),
    member (list nat) TailSt.indices (fun s a => { s with indices := a }),
    member (list num) TailSt.samples (fun s a => { s with samples := a })]

/-- `count.hpp:47-51`, `min.hpp:52-56`, `max.hpp:52-56`, `density.hpp:191-201`. -/
def densitySer : Ser K (DensitySt K) :=
  all [member nat DensitySt.cnt (fun s a => { s with cnt := a }),
    member num DensitySt.mn (fun s a => { s with mn := a }),
    member num DensitySt.mx (fun s a => { s with mx := a }),
    member nat DensitySt.cacheSize (fun s a => { s with cacheSize := a }),
    member (list num) DensitySt.cache (fun s a => { s with cache := a }),
    member nat DensitySt.numBins (fun s a => { s with numBins := a }),
    member (list num) DensitySt.bins (fun s a => { s with bins := a }),
    member (list num) DensitySt.pos (fun s a => { s with pos := a }),
    member (list (pair num res)) DensitySt.hist (fun s a => { s with hist := a }),
    member bool DensitySt.dirty (fun s a => { s with dirty := a })]

/-- `count.hpp:47-51`, `sum.hpp:54-58`, `min.hpp:52-56`, `max.hpp:52-56`, `weighted_density.hpp:178-188`. -/
def wdensitySer : Ser K (WDensitySt K) :=
  all [member nat WDensitySt.cnt (fun s a => { s with cnt := a }),
    member num WDensitySt.wsum (fun s a => { s with wsum := a }),
    member num WDensitySt.mn (fun s a => { s with mn := a }),
    member num WDensitySt.mx (fun s a => { s with mx := a }),
    member nat WDensitySt.cacheSize (fun s a => { s with cacheSize := a }),
    member (list (pair num num)) WDensitySt.cache (fun s a => { s with cache := a }),
    member nat WDensitySt.numBins (fun s a => { s with numBins := a }),
    member (list num) WDensitySt.bins (fun s a => { s with bins := a }),
    member (list num) WDensitySt.pos (fun s a => { s with pos := a }),
    member (list (pair num res)) WDensitySt.hist (fun s a => { s with hist := a }),
    member bool WDensitySt.dirty (fun s a => { s with dirty := a })]

/-- The density set, then `median.hpp:113-119`. -/
def dmedianSer : Ser K (DMedianSt K) :=
  all [part densitySer DMedianSt.dens (fun s a => { s with dens := a }),
    member num DMedianSt.sum (fun s a => { s with sum := a }),
    member bool DMedianSt.dirty (fun s a => { s with dirty := a }),
    member num DMedianSt.median (fun s a => { s with median := a })]

/-- The weighted density set, then `weighted_median.hpp:110-116`. -/
def wdmedianSer : Ser K (WDMedianSt K) :=
  all [part wdensitySer WDMedianSt.dens (fun s a => { s with dens := a }),
    member num WDMedianSt.sum (fun s a => { s with sum := a }),
    member bool WDMedianSt.dirty (fun s a => { s with dirty := a }),
    member num WDMedianSt.median (fun s a => { s with median := a })]

/-- `count.hpp:47-51`, `p_square_quantile.hpp:198-206`, `extended_p_square.hpp:243-251` (the members `p`,
`probabilities` and `positions_increments` never change after construction and are parameters in the model). -/
def psqSer : Ser K (PsqSt K) :=
  all [member nat PsqSt.cnt (fun s a => { s with cnt := a }),
    member (list num) PsqSt.heights (fun s a => { s with heights := a }),
    member (list num) PsqSt.pos (fun s a => { s with pos := a }),
    member (list num) PsqSt.des (fun s a => { s with des := a })]

/-- `count.hpp:47-51`, `p_square_cumul_dist.hpp:212-222`. -/
def psqCumulSer : Ser K (PsqCumulSt K) :=
  all [part psqSer PsqCumulSt.m (fun s a => { s with m := a }),
    member (list (pair num res)) PsqCumulSt.hist (fun s a => { s with hist := a }),
    member bool PsqCumulSt.dirty (fun s a => { s with dirty := a })]

/-- `count.hpp:47-51`, `sum.hpp:54-58`, `weighted_p_square_quantile.hpp:213-220`,
`weighted_extended_p_square.hpp:257-264` (`desired_positions` is recomputed before it is read and not part of
the state in the model). -/
def wpsqSer : Ser K (WPsqSt K) :=
  all [member nat WPsqSt.cnt (fun s a => { s with cnt := a }),
    member num WPsqSt.wsum (fun s a => { s with wsum := a }),
    member (list num) WPsqSt.heights (fun s a => { s with heights := a }),
    member (list num) WPsqSt.pos (fun s a => { s with pos := a })]

/-- `weighted_p_square_cumul_dist.hpp:226-235`. -/
def wpsqCumulSer : Ser K (WPsqCumulSt K) :=
  all [part wpsqSer WPsqCumulSt.m (fun s a => { s with m := a }),
    member (list (pair num res)) WPsqCumulSt.hist (fun s a => { s with hist := a }),
    member bool WPsqCumulSt.dirty (fun s a => { s with dirty := a })]

/-- The cumulative distribution, then `median.hpp:179-184`. -/
def cmedianSer : Ser K (CMedianSt K) :=
  all [part psqCumulSer CMedianSt.dist (fun s a => { s with dist := a }),
    member bool CMedianSt.dirty (fun s a => { s with dirty := a }),
    member num CMedianSt.median (fun s a => { s with median := a })]

/-- The weighted cumulative distribution, then `weighted_median.hpp:176-181`. -/
def wcmedianSer : Ser K (WCMedianSt K) :=
  all [part wpsqCumulSer WCMedianSt.dist (fun s a => { s with dist := a }),
    member bool WCMedianSt.dirty (fun s a => { s with dirty := a }),
    member num WCMedianSt.median (fun s a => { s with median := a })]

/-- `count.hpp:47-51`, `peaks_over_threshold.hpp:186-197`. -/
def potSer : Ser K (PotSt K) :=
  all [member nat PotSt.cnt (fun s a => { s with cnt := a }),
    member nat PotSt.nu (fun s a => { s with nu := a }),
    member res PotSt.mu (fun s a => { s with mu := a }),
    member res PotSt.sigma2 (fun s a => { s with sigma2 := a }),
    member num PotSt.thr (fun s a => { s with thr := a }),
    member res (fun s => s.fit.1) (fun s a => { s with fit := (a, s.fit.2) }),
    member res (fun s => s.fit.2.1) (fun s a => { s with fit := (s.fit.1, a, s.fit.2.2) }),
    member res (fun s => s.fit.2.2) (fun s a => { s with fit := (s.fit.1, s.fit.2.1, a) }),
    member bool PotSt.dirty (fun s a => { s with dirty := a })]

/-- `count.hpp:47-51`, the tail cache, `peaks_over_threshold.hpp:311-321`. -/
def potProbSer : Ser K (PotProbSt K Unit) :=
  all [member nat PotProbSt.cnt (fun s a => { s with cnt := a }),
    part tailSer PotProbSt.tail (fun s a => { s with tail := a }),
    member res PotProbSt.mu (fun s a => { s with mu := a }),
    member res PotProbSt.sigma2 (fun s a => { s with sigma2 := a }),
    member num PotProbSt.tp (fun s a => { s with tp := a }),
    member res (fun s => s.fit.1) (fun s a => { s with fit := (a, s.fit.2) }),
    member res (fun s => s.fit.2.1) (fun s a => { s with fit := (s.fit.1, a, s.fit.2.2) }),
    member res (fun s => s.fit.2.2) (fun s a => { s with fit := (s.fit.1, s.fit.2.1, a) }),
    member bool PotProbSt.dirty (fun s a => { s with dirty := a })]

/-- `sum.hpp:54-58` for `sum_of_weights`, `weighted_peaks_over_threshold.hpp:114-123`: `w_sum_` is *not* among the
members. (`sign_` is a constant.) -/
def wpotSer : Ser K (WPotSt K) :=
  all [member num WPotSt.total (fun s a => { s with total := a }),
    member res WPotSt.mu (fun s a => { s with mu := a }),
    member res WPotSt.sigma2 (fun s a => { s with sigma2 := a }),
    member num WPotSt.thr (fun s a => { s with thr := a }),
    member (pair res (pair res res)) WPotSt.fit (fun s a => { s with fit := a }),
    member bool WPotSt.dirty (fun s a => { s with dirty := a })]

end estimators

/-! ## Sets as machines

The sets of `Model/Basic`, `Model/Weighted` and `Model/Rolling`, whose extractions do not change anything, with the
interface of `RMachine`. -/

/-- A set whose push cannot go wrong and whose extraction has no effect. -/
def plainSet {X S R : Type} (init : S) (push : S → X → S) (read : S → R) : RMachine X Unit S R where
  init := init
  push s x := .val (push s x)
  query s _ := .val (s, read s)

section
variable {K : Type} [Field K]

/-- A provider of the mean alone. -/
def meanSet {X : Type} (P : MeanProvider X K) : RMachine X Unit P.St (Res K) := plainSet P.init P.push P.read

variable [DecidableEq K]

/-- `features<tag::moment<N>>`. -/
def momentSet (N : ℕ) (x0 : K) : RMachine K Unit (MomentSt K) (Res K) :=
  plainSet (MomentSt.init x0) (MomentSt.push N) MomentSt.result

/-- `features<tag::variance>`. -/
def varianceSet (P : MeanProvider K K) (x0 : K) : RMachine K Unit (VarianceSt P.St K) (Res K) :=
  plainSet (VarianceSt.init P x0) (VarianceSt.push P) VarianceSt.var

/-- `features<tag::covariance<...>>`. -/
def covSet (P Q : MeanProvider K K) (x0 y0 : K) : RMachine (K × K) Unit (CovSt P.St Q.St K) (Res K) :=
  plainSet (CovSt.init P Q x0 y0) (CovSt.push P Q) CovSt.cov

/-- `features<tag::weighted_moment<N>>`. -/
def wmomentSet (N : ℕ) (x0 : K) : RMachine (K × K) Unit (WMomentSt K) (Res K) :=
  plainSet ⟨0, x0 * 1⟩ (WMomentSt.push N) (fun s => fdiv s.sum s.sumW)

/-- `features<tag::weighted_variance>`. -/
def wvarianceSet (P : MeanProvider (K × K) K) (x0 : K) :
    RMachine (K × K) Unit (WVarianceSt P.St K) (Res K) :=
  plainSet ⟨P.init, 0, 0, fdiv x0 1⟩ (WVarianceSt.push P) WVarianceSt.var

/-- `features<tag::weighted_covariance<...>>`. -/
def wcovSet (P Q : MeanProvider (K × K) K) : RMachine ((K × K) × K) Unit (WCovSt P.St Q.St K) (Res K) :=
  plainSet ⟨P.init, Q.init, 0, 0, .val 0⟩ (WCovSt.push P Q) WCovSt.cov

variable [LinearOrder K]

/-- What can be extracted from the rolling accumulators: window, count, sum, moments, mean and variance. -/
inductive RollQuery where
  | window | count | sum | moment (M : ℕ) | mean | lazyVariance | variance

/-- The answer to a query, as a list of numbers. -/
def RollSt.read (kind : RollMeanKind) (s : RollSt K) : RollQuery → List (Res K)
  | .window => (windowResult s.b).map .val
  | .count => [.val (rollingCount s.b : K)]
  | .sum => [s.sum]
  | .moment M => [rollingMomentResult s.b (s.moment M)]
  | .mean => [s.mean kind]
  | .lazyVariance => [lazyRollingVarianceResult s.b (rollingMomentResult s.b (s.moment 2)) (s.mean kind)]
  | .variance => [s.var.result s.b]

/-- A set with the rolling accumulators, with `window_size = N`. -/
def rollSet (kind : RollMeanKind) (N : ℕ) (x0 : K) : RMachine K RollQuery (RollSt K) (List (Res K)) where
  init := RollSt.init N x0
  push s x := .val (s.push kind x)
  query s q := .val (s, s.read kind q)

/-- A set with the features `tail<side>`, `count`, without variates: the query is `extract::tail`. -/
def tailSet (H : HeapImpl ℕ) (side : Side) (k : ℕ) (x0 : K) :
    RMachine K Unit (TailSt K Unit) (List K) where
  init := tailInit k x0 ()
  push s x := tailPush H side s x ()
  query s _ := do
    let r ← tailResult H side s
    pure (tailSort H side s, r)

end

end Acc
