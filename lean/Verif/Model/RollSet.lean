import Verif.Model.StdLib
import Verif.Model.AccSet
import Verif.Model.Rolling

/-!
# The rolling accumulators as accumulators of a set

The step functions of `Model/Rolling` used as an `Impl`: every accumulator fetches what it needs from the set,
through whichever accumulator provides the feature.  Features other than the rolling ones do nothing.
-/

namespace Acc

universe u

variable {K : Type} [Arith K] [LinearOrder K]

/-- State of one accumulator. -/
inductive RollCell (K : Type) where
  | window (b : Ring K)
  | num (r : Res K)
  | var (v : RollVar K)
  | none

namespace RollCell

/-- `rolling_window_plus1(args)`. -/
def windowOf (env : Env StdF (RollCell K)) : Option (Ring K) :=
  match env .rollingWindowPlus1 with
  | some (_, .window b) => some b
  | _ => Option.none

/-- Do something with the window (there is always one in a set with rolling accumulators). -/
def withWindow (env : Env StdF (RollCell K)) (g : Ring K → RollCell K) : RollCell K :=
  match windowOf env with
  | some b => g b
  | Option.none => .none

/-- The number held by the accumulator of an abstract feature. -/
def numOf (env : Env StdF (RollCell K)) (k : StdF) : Res K :=
  match env k with
  | some (_, .num r) => r
  | _ => .ub

/-- `rolling_mean(args)`: what that means depends on the accumulator found (`rolling_mean.hpp:41-45` and
`89-93`). -/
def meanOf (env : Env StdF (RollCell K)) (b : Ring K) : Res K :=
  match env .rollingMean with
  | some (.lazyRollingMean, _) => lazyRollingMeanResult b (numOf env .rollingSum)
  | some (_, .num r) => r
  | _ => .ub

/-- The result of `rolling_variance` when an immediate variant is installed. -/
def varianceOf (env : Env StdF (RollCell K)) : Res K :=
  match windowOf env, env .rollingVariance with
  | some b, some (_, .var v) => v.result b
  | _, _ => .ub

end RollCell

open RollCell in
/-- The accumulators of a set constructed with `window_size = N` and no initial sample. -/
def rollImpl (N : ℕ) : Impl StdF (RollCell K) K where
  init
    | .rollingWindowPlus1 => .window (windowInit N)
    | .rollingSum | .immediateRollingMean | .rollingMean => .num (.val 0)
    | .rollingVariance | .immediateRollingVariance => .var (RollVar.init 0)
    | _ => .none
  upd f env x :=
    match f with
    | .rollingWindowPlus1 => withWindow env fun b => .window (windowPush b x)
    | .rollingSum => withWindow env fun b => .num (rollingSumStep b (numOf env .rollingSum) x)
    | .immediateRollingMean | .rollingMean =>
      withWindow env fun b => .num (immRollingMeanStep b (numOf env .rollingMean) x)
    | .rollingVariance | .immediateRollingVariance =>
      withWindow env fun b =>
        match env .rollingVariance with
        | some (_, .var v) => .var (v.step b (meanOf env b) x)
        | _ => .none
    | _ => .none

end Acc
