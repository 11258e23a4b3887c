import Verif.Model.QuerySet
import Verif.Model.ExtWeights
import Verif.Model.VecWCov
import Verif.Model.Modifiers

/-!
# The model on the inputs of the repository's own tests

`/repo/test/*.cpp` cannot be run here.  Where its inputs are literals (not random numbers), the model is evaluated on
the same requests, pushes and extractions, and must give the values that the test expects; file names below are those in
`/repo/test/`, the function is `test_stat` if none is named.  Numbers are exact rationals; where the test compares up to rounding the exact value is stated, or the
model's value is compared with the decimal of the test with the tolerance of the test.

**These are tests of the model (of its fidelity to the code), not proofs of properties**; nothing else depends on this
file.
-/

namespace Acc.RepoTest

open StdF Cell

/-- A set of `int` or `double` without parameters. -/
def cfg : Cfg ℚ where
  lo := -2147483648
  hi := 2147483647
  irr := fun _ _ _ => .ub
  pw := fun _ _ => .ub
  hasNaN := true
  heap := HeapImpl.simple
  window := 0
  densCache := 0
  numBins := 0
  cells := 0
  prob := 1 / 2
  probs := []
  tailCache := 0
  potThr := 0
  potProb := 0

/-- `acc(x, weight = w, covariate1 = c)`. -/
def push (x : ℚ) (w : ℚ := 1) (c : ℚ := 0) : QueryOp ℚ := .push ⟨⟨x, w, fun _ => c⟩, fun _ => [c]⟩

/-- `acc(x, weight = w, covariate1 = v)` with a vector. -/
def pushv (x : ℚ) (w : ℚ) (v : List ℚ) : QueryOp ℚ := .push ⟨⟨x, w, fun _ => 0⟩, fun _ => v⟩

/-- `feature(acc, quantile_probability = p)`. -/
def ask (f : StdF) (p : ℚ := 0) : QueryOp ℚ := .extract f.key p

/-- What the extractions of a history return. -/
def outs (cfg : Cfg ℚ) (w : Bool) (req : List StdF) (ops : List (QueryOp ℚ)) : List (Out ℚ) :=
  let req := req.map fun f => (⟨f, false⟩ : Tag StdF)
  let S := stdLib.accumulators w id req
  let s := stdLib.construct (fullImpl cfg).toImpl S req
  (ops.foldl (fun (st : Env StdF (Cell ℚ) × List (Out ℚ)) op =>
    match op with
    | .push a => (stdLib.pushX (fullImpl cfg) S s.refs S st.1 a, st.2)
    | .extract k p => let r := extract cfg p k st.1; (r.1, st.2 ++ [r.2])) (s.env, [])).2

def nums (l : List (Out ℚ)) : List (Res ℚ) := l.map Out.asNum
def lists (l : List (Out ℚ)) : List (Res (List ℚ)) := l.map Out.asList
def vecs (l : List (Out ℚ)) : List (Res (List (List ℚ))) := l.map Out.asVecs

/-- The results are numbers within `tol` of those expected. -/
def close (tol : ℚ) (l : List (Out ℚ)) (expected : List ℚ) : Bool :=
  decide (l.length = expected.length) && ((l.zip expected).all fun p =>
    match p.1.asNum with
    | .val x => decide (|x - p.2| ≤ tol)
    | _ => false)

/-! ## Elementary statistics -/

/-- `count.cpp`. -/
example : nums (outs cfg false [count] [push 1, ask count, push 1, ask count, push 1, ask count, push 1, ask count]) =
    [.val 1, .val 2, .val 3, .val 4] := by decide +kernel

/-- `min.cpp`, `max.cpp`. -/
example : nums (outs cfg false [min] [push 1, ask min, push 0, ask min, push 2, ask min]) =
    [.val 1, .val 0, .val 0] := by decide +kernel
example : nums (outs cfg false [max] [push 1, ask max, push 0, ask max, push 2, ask max]) =
    [.val 1, .val 1, .val 2] := by decide +kernel

def sumAsks : List (QueryOp ℚ) := [ask sum, ask sumOfWeights, ask (sumOfVariates 1)]

/-- `sum.cpp`: in a set with weights `tag::sum` is the weighted sum. -/
example : nums (outs cfg true [sum, sumOfWeights, sumOfVariates 1]
    (push 1 2 3 :: sumAsks ++ push 2 4 6 :: sumAsks ++ push 3 6 9 :: sumAsks)) =
    [.val 2, .val 2, .val 3, .val 10, .val 6, .val 9, .val 28, .val 12, .val 18] := by decide +kernel

def wsumAsks : List (QueryOp ℚ) := [ask weightedSum, ask (weightedSumOfVariates 1)]

/-- `weighted_sum.cpp`. -/
example : nums (outs cfg true [weightedSum, weightedSumOfVariates 1]
    (push 1 2 3 :: wsumAsks ++ push 2 3 6 :: wsumAsks ++ push 4 6 9 :: wsumAsks)) =
    [.val 2, .val 6, .val 8, .val 24, .val 32, .val 78] := by decide +kernel

def meanAsks : List (QueryOp ℚ) := [ask mean, ask count, ask sum, ask (meanOfVariates 1)]

/-- `mean.cpp`. -/
example : nums (outs cfg false [mean, meanOfVariates 1]
    (push 1 1 3 :: meanAsks ++ push 0 1 4 :: meanAsks ++ push 2 1 8 :: meanAsks)) =
    [.val 1, .val 1, .val 1, .val 3, .val (1 / 2), .val 2, .val 1, .val (7 / 2), .val 1, .val 3, .val 3, .val 5] := by
  decide +kernel

def immAsks : List (QueryOp ℚ) := [ask mean, ask count, ask (meanOfVariates 1)]

/-- `mean.cpp`, `acc2`. -/
example : nums (outs cfg false [immediateMean, immediateMeanOfVariates 1]
    (push 1 1 3 :: immAsks ++ push 0 1 4 :: immAsks ++ push 2 1 8 :: immAsks)) =
    [.val 1, .val 1, .val 3, .val (1 / 2), .val 2, .val (7 / 2), .val 1, .val 3, .val 5] := by decide +kernel

def wmeanAsks : List (QueryOp ℚ) := [ask mean, ask count, ask sum, ask meanOfWeights, ask (meanOfVariates 1)]

/-- `weighted_mean.cpp`; the test extracts `count`, which `mean_of_weights` brings into the set. -/
example : nums (outs cfg true [weightedMean, meanOfWeights, weightedMeanOfVariates 1]
    (push 1 2 3 :: wmeanAsks ++ push 0 4 4 :: wmeanAsks ++ push 2 9 8 :: wmeanAsks)) =
    [.val 1, .val 1, .val 2, .val 2, .val 3,
     .val (1 / 3), .val 2, .val 2, .val 3, .val (11 / 3),
     .val (4 / 3), .val 3, .val 20, .val 5, .val (94 / 15)] := by decide +kernel

def wimmAsks : List (QueryOp ℚ) := [ask mean, ask count, ask meanOfWeights, ask (meanOfVariates 1)]

/-- `weighted_mean.cpp`, `acc2`. -/
example : nums (outs cfg true [immediateWeightedMean, immediateMeanOfWeights, immediateWeightedMeanOfVariates 1]
    (push 1 2 3 :: wimmAsks ++ push 0 4 4 :: wimmAsks ++ push 2 9 8 :: wimmAsks)) =
    [.val 1, .val 1, .val 2, .val 3, .val (1 / 3), .val 2, .val 3, .val (11 / 3),
     .val (4 / 3), .val 3, .val 5, .val (94 / 15)] := by decide +kernel

/-- `moment.cpp`. -/
example : nums (outs cfg false [moment 2] [push 2, push 4, push 5, ask (moment 2)]) = [.val 15] := by decide +kernel
example : nums (outs cfg false [moment 5] [push 2, push 3, push 4, push 5, ask (moment 5)]) = [.val 1106] := by
  decide +kernel

/-- `weighted_moment.cpp`. -/
example : close (1 / 10000) (outs cfg true [weightedMoment 2, weightedMoment 7]
    [push (21 / 10) (7 / 10), push (27 / 10) (14 / 10), push (18 / 10) (9 / 10), ask (moment 2), ask (moment 7)])
    [5403 / 1000, 54854182 / 100000] = true := by decide +kernel

def five : List (QueryOp ℚ) := [push 1, push 2, push 3, push 4, push 5]

/-- `variance.cpp`. -/
example : nums (outs cfg false [lazyVariance] (five ++ [ask count, ask mean, ask (moment 2), ask variance])) =
    [.val 5, .val 3, .val 11, .val 2] := by decide +kernel
example : nums (outs cfg false [variance] (five ++ [ask count, ask mean, ask variance])) =
    [.val 5, .val 3, .val 2] := by decide +kernel

def wfive : List (QueryOp ℚ) := [push 1 2, push 2 3, push 3 1, push 4 4, push 5 1]

/-- `weighted_variance.cpp`. -/
example : nums (outs cfg true [lazyWeightedVariance] (wfive ++ [ask count, ask mean, ask (moment 2), ask variance])) =
    [.val 5, .val (32 / 11), .val (112 / 11), .val (208 / 121)] := by decide +kernel
example : nums (outs cfg true [weightedVariance] (wfive ++ [ask count, ask mean, ask variance])) =
    [.val 5, .val (32 / 11), .val (208 / 121)] := by decide +kernel
example : |(208 / 121 : ℚ) - 17190083 / 10000000| ≤ 1 / 10000000 := by decide +kernel

def odd5 : List (QueryOp ℚ) := [push 2, push 7, push 4, push 9, push 3]

/-- `kurtosis.cpp`. -/
example : nums (outs cfg false [kurtosis] (odd5 ++ [ask mean, ask (moment 2), ask (moment 3), ask (moment 4)])) =
    [.val 5, .val (159 / 5), .val (1171 / 5), .val 1863] := by decide +kernel
example : close (1 / 100000000) (outs cfg false [kurtosis] (odd5 ++ [ask kurtosis]))
    [-139965397924 / 100000000000] = true := by decide +kernel

/-- The square of the skewness (the root is not rational). -/
def skew2 : StdF → ℕ → (StdF → Res ℚ) → Res ℚ := fun _ _ rd => do
  let m ← rd mean
  let m2 ← rd (moment 2)
  let m3 ← rd (moment 3)
  let a := m3 - 3 * m2 * m + 2 * m * m * m
  let v := m2 - m * m
  fdiv (a * a) (v * v * v)

/-- `skewness.cpp`: the expected value is `0.406040288214`. -/
example : close (1 / 1000000000) (outs { cfg with irr := skew2 } false [skewness] (odd5 ++ [ask skewness]))
    [(406040288214 / 1000000000000) ^ 2] = true := by decide +kernel

def wodd5 : List (QueryOp ℚ) := [push 2 4, push 7 1, push 4 3, push 9 1, push 3 2]

/-- `weighted_kurtosis.cpp`. -/
example : nums (outs cfg true [weightedKurtosis] (wodd5 ++ [ask mean, ask (moment 2), ask (moment 3), ask (moment 4)])) =
    [.val (42 / 11), .val (212 / 11), .val (1350 / 11), .val (9956 / 11)] := by decide +kernel
example : close (1 / 100000000) (outs cfg true [weightedKurtosis] (wodd5 ++ [ask kurtosis]))
    [58137026432 / 100000000000] = true := by decide +kernel

/-- `weighted_skewness.cpp`: the expected value is `1.30708406282`. -/
example : close (1 / 1000000000) (outs { cfg with irr := skew2 } true [weightedSkewness] (wodd5 ++ [ask skewness]))
    [(130708406282 / 100000000000) ^ 2] = true := by decide +kernel

/-- `covariance.cpp`, `acc`, and the fresh set of `test_persistency`. -/
example : nums (outs cfg false [covariance 1]
    [ask (covariance 1), push 1 1 2, push 1 1 4, push 2 1 3, push 6 1 1, ask (covariance 1)]) =
    [.val 0, .val (-7 / 4)] := by decide +kernel

/-- `weighted_covariance.cpp`, `acc`. -/
example : nums (outs cfg true [weightedCovariance 1]
    [push 1 (11 / 10) 2, push 1 (22 / 10) 4, push 2 (33 / 10) 3, push 6 (44 / 10) 1, ask (covariance 1)]) =
    [.val (-239 / 100)] := by decide +kernel

/-! ## Rolling windows -/

def roll (N : ℕ) : Cfg ℚ := { cfg with window := N }

/-- The statistic after each push. -/
def each (f : StdF) (xs : List ℚ) : List (QueryOp ℚ) := xs.flatMap fun x => [push x, ask f]

/-- `rolling_count.cpp`. -/
example : nums (outs (roll 3) false [StdF.rollingCount] (ask StdF.rollingCount :: each StdF.rollingCount [1, 1, 1, 1, 1])) =
    [.val 0, .val 1, .val 2, .val 3, .val 3, .val 3] := by decide +kernel

/-- `rolling_sum.cpp`. -/
example : nums (outs (roll 3) false [rollingSum] (ask rollingSum :: each rollingSum [1, 2, 3, 4, 5])) =
    [.val 0, .val 1, .val 3, .val 6, .val 9, .val 12] := by decide +kernel

/-- `rolling_mean.cpp`, lazy and immediate. -/
example : nums (outs (roll 5) false [lazyRollingMean] (each rollingMean [1, 2, 3, 4, 5, 6, 7])) =
    [.val 1, .val (3 / 2), .val 2, .val (5 / 2), .val 3, .val 4, .val 5] := by decide +kernel
example : nums (outs (roll 5) false [immediateRollingMean] (each rollingMean [1, 2, 3, 4, 5, 6, 7])) =
    [.val 1, .val (3 / 2), .val 2, .val (5 / 2), .val 3, .val 4, .val 5] := by decide +kernel

/-- `rolling_mean.cpp`, the unsigned samples. -/
example : nums (outs (roll 5) false [rollingMean] (each rollingMean [7, 6, 5, 4, 3, 2, 1])) =
    [.val 7, .val (13 / 2), .val 6, .val (11 / 2), .val 5, .val 4, .val 3] := by decide +kernel

/-- `rolling_moment.cpp`. -/
example : nums (outs (roll 3) false [rollingMoment 2] (each (rollingMoment 2) [2, 4, 5, 6])) =
    [.val 4, .val 10, .val 15, .val (77 / 3)] := by decide +kernel
example : nums (outs (roll 3) false [rollingMoment 5] (each (rollingMoment 5) [2, 3, 4, 5])) =
    [.val 32, .val (275 / 2), .val (1299 / 3), .val (4392 / 3)] := by decide +kernel

def octave : List ℚ := [12 / 10, 23 / 10, 34 / 10, 45 / 10, 4 / 10, 22 / 10, 71 / 10, 4]

/-- `rolling_variance.cpp`: the values computed by Octave. -/
def octaveVar : List ℚ := [0, 605 / 1000, 121 / 100, 201666666666667 / 100000000000000, 305666666666667 / 100000000000000,
  30825 / 10000, 841666666666667 / 100000000000000, 81625 / 10000]

example : close (1 / 10000000000) (outs (roll 4) false [immediateRollingVariance] (each rollingVariance octave)) octaveVar
    = true := by decide +kernel
example : close (1 / 10000000000) (outs (roll 4) false [immediateRollingVariance, rollingMean] (each rollingVariance octave))
    octaveVar = true := by decide +kernel
example : close (1 / 10000000000) (outs (roll 4) false [lazyRollingVariance] (each rollingVariance octave)) octaveVar
    = true := by decide +kernel

/-! ## Tails -/

def tailCfg (k : ℕ) : Cfg ℚ := { cfg with tailCache := k }

/-- The pushes of `tail.cpp` (the numerals there are octal), each followed by the extractions. -/
def tailOps (s : Side) : List (QueryOp ℚ) :=
  [push 8 2 3, push 16 7 1, push 12 6 4, push 24 4 5, push 1 1 9, push 9 3 7].flatMap fun a =>
    [a, ask (tail s), ask (tailWeights s)]

/-- `tail.cpp`, `test_right_tail`. -/
example : lists (outs (tailCfg 4) true [tailWeights .right, tailVariate 1 .right] (tailOps .right)) =
    [.val [8], .val [2],
     .val [16, 8], .val [7, 2],
     .val [16, 12, 8], .val [7, 6, 2],
     .val [24, 16, 12, 8], .val [4, 7, 6, 2],
     .val [24, 16, 12, 8], .val [4, 7, 6, 2],
     .val [24, 16, 12, 9], .val [4, 7, 6, 3]] := by decide +kernel

/-- `tail.cpp`, `test_left_tail`. -/
example : lists (outs (tailCfg 4) true [tailWeights .left, tailVariate 1 .left] (tailOps .left)) =
    [.val [8], .val [2],
     .val [8, 16], .val [2, 7],
     .val [8, 12, 16], .val [2, 6, 7],
     .val [8, 12, 16, 24], .val [2, 6, 7, 4],
     .val [1, 8, 12, 16], .val [1, 2, 6, 7],
     .val [1, 8, 9, 12], .val [1, 2, 3, 6]] := by decide +kernel

/-- The same with the variates. -/
def variateOps (s : Side) : List (QueryOp ℚ) :=
  [push 8 2 3, push 16 7 1, push 12 6 4, push 24 4 5, push 1 1 9, push 9 3 7].flatMap fun a => [a, ask (tailVariate 1 s)]

example : vecs (outs (tailCfg 4) true [tailWeights .right, tailVariate 1 .right] (variateOps .right)) =
    [.val [[3]], .val [[1], [3]], .val [[1], [4], [3]], .val [[5], [1], [4], [3]], .val [[5], [1], [4], [3]],
     .val [[5], [1], [4], [7]]] := by decide +kernel
example : vecs (outs (tailCfg 4) true [tailWeights .left, tailVariate 1 .left] (variateOps .left)) =
    [.val [[3]], .val [[3], [1]], .val [[3], [4], [1]], .val [[3], [4], [1], [5]], .val [[9], [3], [4], [1]],
     .val [[9], [3], [7], [4]]] := by decide +kernel

/-- The pushes of `tail_variate_means.cpp` and `weighted_tail_variate_means.cpp`. -/
def risk : List (QueryOp ℚ) :=
  [pushv 100 (8 / 10) [10, 20, 30, 40], pushv 50 (9 / 10) [26, 4, 17, 3], pushv 200 1 [46, 64, 40, 50],
   pushv 80 (11 / 10) [1, 3, 70, 6], pushv 20 (12 / 10) [2, 2, 2, 14]]

/-- `tail_variate_means.cpp`. -/
example : lists (outs (tailCfg 5) false [relativeTailVariateMeans .right 1]
    (risk ++ [ask (relativeTailVariateMeans .right 1) (7 / 10), ask (relativeTailVariateMeans .right 1) (9 / 10)])) =
    [.val [14 / 75, 7 / 25, 7 / 30, 3 / 10], .val [23 / 100, 8 / 25, 1 / 5, 1 / 4]] := by decide +kernel
example : lists (outs (tailCfg 5) false [absoluteTailVariateMeans .right 1]
    (risk ++ [ask (absoluteTailVariateMeans .right 1) (7 / 10), ask (absoluteTailVariateMeans .right 1) (9 / 10)])) =
    [.val [28, 42, 35, 45], .val [46, 64, 40, 50]] := by decide +kernel
example : lists (outs (tailCfg 5) false [relativeTailVariateMeans .left 1]
    (risk ++ [ask (relativeTailVariateMeans .left 1) (3 / 10), ask (relativeTailVariateMeans .left 1) (1 / 10)])) =
    [.val [14 / 35, 3 / 35, 19 / 70, 17 / 70], .val [1 / 10, 1 / 10, 1 / 10, 7 / 10]] := by decide +kernel
example : lists (outs (tailCfg 5) false [absoluteTailVariateMeans .left 1]
    (risk ++ [ask (absoluteTailVariateMeans .left 1) (3 / 10), ask (absoluteTailVariateMeans .left 1) (1 / 10)])) =
    [.val [14, 3, 19 / 2, 17 / 2], .val [2, 2, 2, 14]] := by decide +kernel

/-- `weighted_tail_variate_means.cpp`. -/
example : lists (outs (tailCfg 5) true [relativeWeightedTailVariateMeans .right 1]
    (risk ++ [ask (relativeTailVariateMeans .right 1) (7 / 10), ask (relativeTailVariateMeans .right 1) (9 / 10)])) =
    [.val [54 / 280, 80 / 280, 64 / 280, 82 / 280], .val [46 / 200, 64 / 200, 40 / 200, 50 / 200]] := by decide +kernel
example : lists (outs (tailCfg 5) true [absoluteWeightedTailVariateMeans .right 1]
    (risk ++ [ask (absoluteTailVariateMeans .right 1) (7 / 10), ask (absoluteTailVariateMeans .right 1) (9 / 10)])) =
    [.val [54 / (18 / 10), 80 / (18 / 10), 64 / (18 / 10), 82 / (18 / 10)], .val [46, 64, 40, 50]] := by decide +kernel
example : lists (outs (tailCfg 5) true [relativeWeightedTailVariateMeans .left 1]
    (risk ++ [ask (relativeTailVariateMeans .left 1) (3 / 10), ask (relativeTailVariateMeans .left 1) (1 / 10)])) =
    [.val [(258 / 10) / 69, 6 / 69, (177 / 10) / 69, (195 / 10) / 69], .val [2 / 20, 2 / 20, 2 / 20, 14 / 20]] := by
  decide +kernel
example : lists (outs (tailCfg 5) true [absoluteWeightedTailVariateMeans .left 1]
    (risk ++ [ask (absoluteTailVariateMeans .left 1) (3 / 10), ask (absoluteTailVariateMeans .left 1) (1 / 10)])) =
    [.val [(258 / 10) / (21 / 10), 6 / (21 / 10), (177 / 10) / (21 / 10), (195 / 10) / (21 / 10)], .val [2, 2, 2, 14]] := by
  decide +kernel

/-! ## Vectors -/

section vectors

local instance : Container := Container.vector

/-- `vector.cpp`. -/
example : vsumRun [0, 0, 0] [[1, 1, 1], [2, 2, 2], [3, 3, 3]] = .val [.val (6 : ℚ), .val 6, .val 6] := by decide +kernel
example : vminRun (fun a b : ℚ => decide (a < b)) 2147483647 [0, 0, 0] [[1, 2, 3], [0, 3, 4], [2, 1, 4]] = .val [0, 1, 3] := by
  decide +kernel
example : vmaxRun (fun a b : ℚ => decide (a < b)) (-2147483648) [0, 0, 0] [[1, 2, 3], [0, 3, 4], [2, 1, 4]] =
    .val [2, 3, 4] := by decide +kernel

/-- `covariance.cpp`, `acc2`, `acc3`, `acc4`. -/
example : covVSRun (lazyVMean [0, 0]) (lazyMean 0) [0, 0] 0 [([1, 2], 1), ([3, 4], 1), ([2, 5], 2), ([4, 2], 6)] =
    .val [.val (7 / 4 : ℚ), .val (-9 / 8)] := by decide +kernel
example : covSVRun (lazyMean 0) (lazyVMean [0, 0]) 0 [0, 0] [(1, [1, 2]), (1, [3, 4]), (2, [2, 5]), (6, [4, 2])] =
    .val [.val (7 / 4 : ℚ), .val (-9 / 8)] := by decide +kernel
example : covVVRun (lazyVMean [0, 0]) (lazyVMean [0, 0]) [0, 0] [0, 0]
    [([1, 2], [3, 4]), ([3, 4], [2, 5]), ([1, 2], [2, 5]), ([4, 2], [3, 4])] =
    .val [[.val (1 / 8 : ℚ), .val (-1 / 4)], [.val (-1 / 8), .val (1 / 4)]] := by decide +kernel

/-- `weighted_covariance.cpp`, `acc2`, `acc3`, `acc4`. -/
example : wcovVSRun (lazyVWMean [0, 0]) (lazyWMean 0) [0, 0] 0
    [(([1, 2], 1), 11 / 10), (([3, 4], 1), 22 / 10), (([2, 5], 2), 33 / 10), (([4, 2], 6), 44 / 10)] =
    .val [.val (193 / 100 : ℚ), .val (-209 / 100)] := by decide +kernel
example : wcovSVRun (lazyWMean 0) (lazyVWMean [0, 0]) 0 [0, 0]
    [((1, [1, 2]), 11 / 10), ((1, [3, 4]), 22 / 10), ((2, [2, 5]), 33 / 10), ((6, [4, 2]), 44 / 10)] =
    .val [.val (193 / 100 : ℚ), .val (-209 / 100)] := by decide +kernel
example : wcovVVRun (lazyVWMean [0, 0]) (lazyVWMean [0, 0]) [0, 0] [0, 0]
    [(([1, 2], [3, 4]), 11 / 10), (([3, 4], [2, 5]), 22 / 10), (([1, 2], [2, 5]), 33 / 10), (([4, 2], [3, 4]), 44 / 10)] =
    .val [[.val (2 / 5 : ℚ), .val (-1 / 5)], [.val (-2 / 5), .val (1 / 5)]] := by decide +kernel

end vectors

/-! ## Droppable accumulators -/

/-- The request `droppable<f>`. -/
def dropp (f : StdF) : Tag StdF := ⟨f, true⟩

/-- `mean`, `count` and `sum` after a history. -/
def dropRun (req : List (Tag StdF)) (ops : List (SetOp StdF (Args ℚ))) (ks : List StdF) : Res (List (Res ℚ)) :=
  let I := statImpl (fun _ _ _ => .ub) (-2147483648) 2147483647
  let S := stdLib.accumulators false id req
  (stdLib.runOps I S (stdLib.construct I S req) ops).bind fun s =>
    .val (ks.map fun k => StatCell.read (fun _ _ _ => .ub) s.env k)

def p1 (x : ℚ) : SetOp StdF (Args ℚ) := .push ⟨x, 1, fun _ => 0⟩

/-- `droppable.cpp`, `test_stat`. -/
example : dropRun [dropp mean] [p1 1, p1 0, .drop ⟨mean, false⟩, p1 2] [mean, count, sum] =
    .val [.val (1 / 2), .val 2, .val 1] := by decide +kernel
/-- `droppable.cpp`, `test_stat`, `acc2`. -/
example : dropRun [dropp immediateMean] [p1 1, p1 0, .drop ⟨mean, false⟩, p1 2] [mean, count] =
    .val [.val (1 / 2), .val 2] := by decide +kernel
/-- `droppable.cpp`, `test_stat2`. -/
example : dropRun [dropp sum, dropp mean] [p1 1, p1 0, .drop ⟨mean, false⟩, .drop ⟨sum, false⟩, p1 2] [mean, count, sum] =
    .val [.val (1 / 2), .val 2, .val 1] := by decide +kernel
/-- `droppable.cpp`, `test_stat3`. -/
example : dropRun [dropp sum, dropp count, dropp mean] [p1 1, p1 0, .drop ⟨mean, false⟩, .drop ⟨sum, false⟩, p1 2]
    [mean, count, sum] = .val [.val (1 / 3), .val 3, .val 1] := by decide +kernel
example : dropRun [dropp sum, dropp count, dropp mean]
    [p1 1, p1 0, .drop ⟨mean, false⟩, .drop ⟨sum, false⟩, p1 2, .drop ⟨count, false⟩, p1 3]
    [mean, count, sum] = .val [.val (1 / 3), .val 3, .val 1] := by decide +kernel

/-! ## External weights -/

/-- `external_weights.cpp`. -/
example :
    let irr : StdF → ℕ → (StdF → Res ℚ) → Res ℚ := fun _ _ _ => .ub
    let req : List (Tag StdF) := [⟨weightedMean, false⟩]
    let reqW : List (Tag StdF) := [⟨sumOfWeights, false⟩]
    let S := stdLib.accumulators true id req
    let SW := stdLib.accumulators true id reqW
    let m (x w : ℚ) : List (TwoOp ℚ) := [.main ⟨x, w, fun _ => 0⟩, .weight w]
    let s := TwoSets.run irr (-1000) 1000 S SW (TwoSets.init irr (-1000) 1000 S SW req reqW)
      (m 10 2 ++ m 6 3 ++ m 4 4 ++ m 6 5)
    TwoSets.extract irr s mean = .val 6 ∧ StatCell.read irr s.weights.env sumOfWeights = .val 14 := by decide +kernel

end Acc.RepoTest
