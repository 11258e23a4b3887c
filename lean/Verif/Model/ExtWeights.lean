import Verif.Model.StatSet

/-!
# Sets with external weights

`accumulator_set<Sample, Features, external<Weight>>`: the accumulators that only look at weights live in another set,
which is passed by name (`weights = weight_acc`) to the extractors, and to `operator()` if an accumulator needs it there.
Paths relative to `/repo/include/boost/accumulators/`.

Simplifications: those of `Model/StatSet`; the other set is passed at every push (if no accumulator asks for it, it may
be absent); holding it by `reference<>` is the same.
-/

namespace Acc

variable {K : Type}

/-- The features with `is_weight_accumulator` (`statistics/sum.hpp:84`, `statistics/sum_kahan.hpp:107`,
`statistics/mean.hpp:117`, `:125`). -/
def StdF.isWeightAcc : StdF → Bool
  | .sumOfWeights | .sumOfWeightsKahan | .meanOfWeights | .immediateMeanOfWeights => true
  | _ => false

/-- The argument pack of a push with `weights = weight_acc`: `ext` is what the extractors return for that set at this
time. -/
structure ExtArgs (K : Type) where
  a : Args K
  ext : StdF → Res K

section
variable [Arith K] [LinearOrder K]

/-- What other accumulators get when they ask for the sum of the weights: `external_impl::result`
(`framework/accumulators/external_accumulator.hpp:34-58`).  (The cell is only read; `meanOfWeights` is asked for by
no other accumulator.) -/
def overlay (ext : StdF → Res K) (env : Env StdF (StatCell K)) : Env StdF (StatCell K) := fun k =>
  match env k with
  | some (.sumOfWeights, _) =>
    match ext .sumOfWeights with
    | .val s => some (.sumOfWeights, .num s)
    | _ => some (.sumOfWeights, .none)
  | some (.sumOfWeightsKahan, _) =>
    match ext .sumOfWeights with
    | .val s => some (.sumOfWeightsKahan, .kahan ⟨s, 0⟩)
    | _ => some (.sumOfWeightsKahan, .none)
  | r => r

/-- `to_accumulator<Feature, Sample, external<Weight>>` (`framework/depends_on.hpp:350-371`): the accumulators for
weights are replaced by `external_impl`, which has no state and an empty `operator()`; the others are as always. -/
def extImpl (irr : StdF → ℕ → (StdF → Res K) → Res K) (lo hi : K) : Impl StdF (StatCell K) (ExtArgs K) where
  init f := if f.isWeightAcc then .none else (statImpl irr lo hi).init f
  upd f env e := if f.isWeightAcc then .none else (statImpl irr lo hi).upd f (overlay e.ext env) e.a

/-- `extract_result<Feature>(acc, weights = weight_acc)`. -/
def extRead (irr : StdF → ℕ → (StdF → Res K) → Res K) (ext : StdF → Res K) (env : Env StdF (StatCell K)) (k : StdF) :
    Res K :=
  match env k with
  | some (f, _) => if f.isWeightAcc then ext f.key else StatCell.read irr (overlay ext env) k
  | none => .ub

/-- A set with external weights, and the set of the weights. -/
structure TwoSets (K : Type) where
  main : SetState StdF (StatCell K)
  weights : SetState StdF (StatCell K)

/-- `weight_acc(weight = w)`, and `acc(x, weight = w, ..., weights = weight_acc)`. -/
inductive TwoOp (K : Type) where
  | weight (w : K)
  | main (a : Args K)

namespace TwoSets

variable (irr : StdF → ℕ → (StdF → Res K) → Res K) (lo hi : K) (S SW : List (Tag StdF))

/-- Both sets constructed; `req`, `reqW` are the requests, `S`, `SW` the accumulators. -/
def init (req reqW : List (Tag StdF)) : TwoSets K where
  main := stdLib.construct (extImpl irr lo hi) S req
  weights := stdLib.construct (statImpl irr lo hi) SW reqW

/-- One push.  (`accumulator_set<void, ..., Weight>` has no samples.) -/
def step (s : TwoSets K) : TwoOp K → TwoSets K
  | .weight w =>
    let a : Args K := ⟨0, w, fun _ => 0⟩
    ⟨s.main, ⟨stdLib.pushEnv (statImpl irr lo hi) SW s.weights.refs s.weights.env a, s.weights.refs⟩⟩
  | .main a =>
    let e : ExtArgs K := ⟨a, StatCell.read irr s.weights.env⟩
    ⟨⟨stdLib.pushEnv (extImpl irr lo hi) S s.main.refs s.main.env e, s.main.refs⟩, s.weights⟩

def run (s : TwoSets K) (ops : List (TwoOp K)) : TwoSets K := ops.foldl (step irr lo hi S SW) s

/-- `extract_result<Feature>(acc, weights = weight_acc)`. -/
def extract (s : TwoSets K) (k : StdF) : Res K := extRead irr (StatCell.read irr s.weights.env) s.main.env k

end TwoSets

end

end Acc
