import Verif.Proofs.Refine
import Verif.Model.StatSet
import Verif.Props.Basic
import Verif.Props.Weighted

/-! # The elementary statistics in one set: what every accumulator holds -/

set_option linter.unusedSectionVars false

namespace Acc

open StdF

/-! ## One step of each accumulator, in terms of the textbook statistics -/

section steps
variable {K : Type} [Field K] [DecidableEq K] [CharZero K]

theorem immMeanStep_spec (xs : List K) (x : K) :
    immMeanStep (xs.length + 1) (.val (if xs = [] then 0 else Spec.mean xs)) x = .val (Spec.mean (xs ++ [x])) := by
  have h1 := immMean_run 0 (xs ++ [x])
  have h0 := immMean_run 0 xs
  rw [MeanProvider.run] at h0
  rw [MeanProvider.run, List.foldl_append, h0] at h1
  simp only [List.foldl_cons, List.foldl_nil, immMean] at h1
  injection h1 with _ h1
  rw [h1]
  simp

theorem varianceStep_spec (xs : List K) (x : K) :
    varianceStep (xs.length + 1) (.val (Spec.mean (xs ++ [x]))) (.val (if xs = [] then 0 else Spec.variance xs)) x
      = .val (Spec.variance (xs ++ [x])) := by
  have h1 := variance_foldl _ lazyMean_correct 0 (xs ++ [x])
  have h0 := variance_foldl _ lazyMean_correct 0 xs
  rw [List.foldl_append, h0] at h1
  have hr : (lazyMean (0 : K)).push ((lazyMean 0).run xs) x = (lazyMean 0).run (xs ++ [x]) := by
    simp [MeanProvider.run]
  simp only [List.foldl_cons, List.foldl_nil, VarianceSt.push, hr, lazyMean_correct (xs ++ [x]) (by simp)] at h1
  injection h1 with _ _ h1
  simpa using h1

theorem covarianceStep_spec (ps : List (K × K)) (p : K × K) :
    covarianceStep (ps.length + 1) (.val (Spec.mean ((ps ++ [p]).map Prod.fst)))
        (.val (Spec.mean ((ps ++ [p]).map Prod.snd))) (.val (if ps = [] then 0 else Spec.covariance ps)) p.1 p.2
      = .val (Spec.covariance (ps ++ [p])) := by
  have h1 := covariance_foldl _ _ lazyMean_correct lazyMean_correct 0 0 (ps ++ [p])
  have h0 := covariance_foldl _ _ lazyMean_correct lazyMean_correct 0 0 ps
  rw [List.foldl_append, h0] at h1
  have hr : (lazyMean (0 : K)).push ((lazyMean 0).run (ps.map Prod.fst)) p.1
      = (lazyMean 0).run ((ps ++ [p]).map Prod.fst) := by
    simp [MeanProvider.run]
  have hr' : (lazyMean (0 : K)).push ((lazyMean 0).run (ps.map Prod.snd)) p.2
      = (lazyMean 0).run ((ps ++ [p]).map Prod.snd) := by
    simp [MeanProvider.run]
  simp only [List.foldl_cons, List.foldl_nil, CovSt.push, hr, hr',
    lazyMean_correct ((ps ++ [p]).map Prod.fst) (by simp),
    lazyMean_correct ((ps ++ [p]).map Prod.snd) (by simp)] at h1
  injection h1 with _ _ _ h1
  simpa using h1

theorem immWMeanStep_spec (ps : List (K × K)) (p : K × K) (h : Spec.NonzeroPrefixes Prod.snd (ps ++ [p])) :
    immWMeanStep (Spec.wtotal (ps ++ [p])) (.val (if ps = [] then 0 else Spec.wmean ps)) p
      = .val (Spec.wmean (ps ++ [p])) := by
  have h1 := immWMean_run 0 (ps ++ [p]) h
  have h0 := immWMean_run 0 ps h.init
  rw [MeanProvider.run] at h0
  rw [MeanProvider.run, List.foldl_append, h0] at h1
  simp only [List.foldl_cons, List.foldl_nil, immWMean] at h1
  injection h1 with h2 h1
  rw [h2] at h1
  rw [h1]
  simp

theorem weightedVarianceStep_spec (ps : List (K × K)) (p : K × K)
    (h : Spec.NonzeroPrefixes Prod.snd (ps ++ [p])) :
    weightedVarianceStep (ps.length + 1) (Spec.wtotal (ps ++ [p])) (.val (Spec.wmean (ps ++ [p])))
        (.val (if ps = [] then 0 else Spec.wvariance ps)) p
      = .val (Spec.wvariance (ps ++ [p])) := by
  have h1 := wvariance_foldl _ lazyWMean_correct (ps ++ [p]) h
  have h0 := wvariance_foldl _ lazyWMean_correct ps h.init
  rw [List.foldl_append, h0] at h1
  have hr : (lazyWMean (0 : K)).push ((lazyWMean 0).run ps) p = (lazyWMean 0).run (ps ++ [p]) := by
    simp [MeanProvider.run]
  simp only [List.foldl_cons, List.foldl_nil, WVarianceSt.push, hr,
    lazyWMean_correct (ps ++ [p]) (by simp) h] at h1
  injection h1 with _ h2 _ h1
  rw [h2] at h1
  simpa using h1

theorem weightedCovarianceStep_spec (ps : List ((K × K) × K)) (p : (K × K) × K)
    (h : Spec.NonzeroPrefixes Prod.snd (ps ++ [p])) :
    weightedCovarianceStep (ps.length + 1) ((ps ++ [p]).map Prod.snd).sum
        (.val (Spec.wmean ((ps ++ [p]).map fun q => (q.1.1, q.2))))
        (.val (Spec.wmean ((ps ++ [p]).map fun q => (q.1.2, q.2))))
        (.val (if ps = [] then 0 else Spec.wcovariance ps)) p.1.1 p.1.2 p.2
      = .val (Spec.wcovariance (ps ++ [p])) := by
  have h1 := wcovariance_foldl _ _ lazyWMean_correct lazyWMean_correct (ps ++ [p]) h
  have h0 := wcovariance_foldl _ _ lazyWMean_correct lazyWMean_correct ps h.init
  rw [List.foldl_append, h0] at h1
  have hr : (lazyWMean (0 : K)).push ((lazyWMean 0).run (ps.map fun q => (q.1.1, q.2))) (p.1.1, p.2)
      = (lazyWMean 0).run ((ps ++ [p]).map fun q => (q.1.1, q.2)) := by
    simp [MeanProvider.run]
  have hr' : (lazyWMean (0 : K)).push ((lazyWMean 0).run (ps.map fun q => (q.1.2, q.2))) (p.1.2, p.2)
      = (lazyWMean 0).run ((ps ++ [p]).map fun q => (q.1.2, q.2)) := by
    simp [MeanProvider.run]
  simp only [List.foldl_cons, List.foldl_nil, WCovSt.push, hr, hr',
    lazyWMean_correct ((ps ++ [p]).map fun q => (q.1.1, q.2)) (by simp) (h.map (fun _ => rfl)),
    lazyWMean_correct ((ps ++ [p]).map fun q => (q.1.2, q.2)) (by simp) (h.map (fun _ => rfl))] at h1
  injection h1 with _ _ h2 _ h1
  rw [h2] at h1
  simpa using h1

end steps

/-! ## The features and their values -/

namespace StdF

/-- The elementary statistics, without weights (`w = false`) and with.  At most one covariate (`v0`) is summed, see
`C42_covariates_collide`. -/
def basic (w : Bool) (v0 : ℕ) : StdF → Bool
  | count | min | max => true
  | sum | sumKahan | mean | immediateMean | immediateMeanOfVariates _ | moment _ | variance | lazyVariance
  | skewness | kurtosis | errorOfMean => !w
  | sumOfVariates v | sumOfVariatesKahan v | meanOfVariates v | covariance v => !w && decide (v = v0)
  | weightedSum | weightedSumKahan | sumOfWeights | sumOfWeightsKahan | weightedMean | immediateWeightedMean
  | meanOfWeights | immediateMeanOfWeights | immediateWeightedMeanOfVariates _ | weightedMoment _
  | weightedVariance | lazyWeightedVariance | weightedSkewness | weightedKurtosis => w
  | weightedSumOfVariates v | weightedSumOfVariatesKahan v | weightedMeanOfVariates v | weightedCovariance v =>
    w && decide (v = v0)
  | _ => false

theorem basic_nice (w : Bool) (v0 : ℕ) (f : StdF) (h : basic w v0 f = true) : nice w .tail f = true := by
  cases w <;> cases f <;> first | rfl | exact absurd h (by decide +revert) | simp [basic] at h

theorem basic_deps (w : Bool) (v0 : ℕ) (f : StdF) (h : basic w v0 f = true) :
    ∀ d ∈ depBases f, basic w v0 (if w then weighted d else d) = true := by
  cases w <;> cases f <;> simp_all [basic, depBases, weighted]

/-- The abstract features that the elementary statistics provide. -/
def elemKey : StdF → Bool
  | count | min | max | sum | sumOfWeights | abstractSumOfVariates | abstractWeightedSumOfVariates | mean
  | meanOfWeights | meanOfVariates _ | moment _ | variance | skewness | kurtosis | abstractCovariance
  | errorOfMean => true
  | _ => false

theorem basic_elemKey {w : Bool} {v0 : ℕ} {f : StdF} (h : basic w v0 f = true) : elemKey (key f) = true := by
  cases f <;> first | rfl | cases h

theorem basic_depKey {w : Bool} {v0 : ℕ} {f : StdF} (h : basic w v0 f = true) {d : StdF} (hd : d ∈ depBases f) :
    elemKey (key d) = true := by
  have := basic_deps w v0 f h d hd
  have h1 := basic_elemKey this
  cases w with
  | false => exact h1
  | true =>
    have : key (weighted d) = key d := stdLib_ok.weighted_key d
    rw [← this]
    exact h1

end StdF

section ideal
variable {K : Type} [Field K] [LinearOrder K]

/-- Samples, (sample, weight) pairs and so on, of a stream of argument packs. -/
def Args.xs (as : List (Args K)) : List K := as.map Args.x
def Args.ws (as : List (Args K)) : List K := as.map Args.w
def Args.vs (v : ℕ) (as : List (Args K)) : List K := as.map fun a => a.v v
def Args.xw (as : List (Args K)) : List (K × K) := as.map fun a => (a.x, a.w)
def Args.vw (v : ℕ) (as : List (Args K)) : List (K × K) := as.map fun a => (a.v v, a.w)
def Args.xv (v : ℕ) (as : List (Args K)) : List (K × K) := as.map fun a => (a.x, a.v v)
def Args.xvw (v : ℕ) (as : List (Args K)) : List ((K × K) × K) := as.map fun a => ((a.x, a.v v), a.w)

open Args

/-- A result that starts at 0. -/
def orZero (as : List (Args K)) (r : K) : StatCell K := .res (.val (if as = [] then 0 else r))

/-- What the accumulator of feature `f` holds after the pushes `as`. -/
def ideal (lo hi : K) (as : List (Args K)) : StdF → StatCell K
  | count => .nat as.length
  | StdF.min => .num (minRun ltb hi (xs as))
  | StdF.max => .num (maxRun ltb lo (xs as))
  | StdF.sum => .num (xs as).sum
  | sumOfWeights => .num (ws as).sum
  | sumOfVariates v => .num (vs v as).sum
  | weightedSum => .num ((xw as).map fun p => p.2 * p.1).sum
  | weightedSumOfVariates v => .num ((vw v as).map fun p => p.2 * p.1).sum
  | sumKahan => .kahan ⟨(xs as).sum, 0⟩
  | sumOfWeightsKahan => .kahan ⟨(ws as).sum, 0⟩
  | sumOfVariatesKahan v => .kahan ⟨(vs v as).sum, 0⟩
  | weightedSumKahan => .kahan ⟨((xw as).map fun p => p.2 * p.1).sum, 0⟩
  | weightedSumOfVariatesKahan v => .kahan ⟨((vw v as).map fun p => p.2 * p.1).sum, 0⟩
  | moment n => .num ((xs as).map fun x => x ^ n).sum
  | weightedMoment n => .num ((xw as).map fun p => p.2 * p.1 ^ n).sum
  | immediateMean => orZero as (Spec.mean (xs as))
  | immediateMeanOfWeights => orZero as (Spec.mean (ws as))
  | immediateMeanOfVariates v => orZero as (Spec.mean (vs v as))
  | immediateWeightedMean => orZero as (Spec.wmean (xw as))
  | immediateWeightedMeanOfVariates v => orZero as (Spec.wmean (vw v as))
  | variance => orZero as (Spec.variance (xs as))
  | weightedVariance => orZero as (Spec.wvariance (xw as))
  | covariance v => orZero as (Spec.covariance (xv v as))
  | weightedCovariance v => orZero as (Spec.wcovariance (xvw v as))
  | _ => .none

/-- The statistics that the others are computed from. -/
def stat0 (w : Bool) (v0 : ℕ) (lo hi : K) (as : List (Args K)) : StdF → Res K
  | count => .val (as.length : K)
  | StdF.min => .val (minRun ltb hi (xs as))
  | StdF.max => .val (maxRun ltb lo (xs as))
  | StdF.sum => .val (if w then ((xw as).map fun p => p.2 * p.1).sum else (xs as).sum)
  | sumOfWeights => .val (ws as).sum
  | abstractSumOfVariates => .val (vs v0 as).sum
  | abstractWeightedSumOfVariates => .val ((vw v0 as).map fun p => p.2 * p.1).sum
  | mean => .val (if w then Spec.wmean (xw as) else Spec.mean (xs as))
  | meanOfWeights => .val (Spec.mean (ws as))
  | meanOfVariates v => .val (if w then Spec.wmean (vw v as) else Spec.mean (vs v as))
  | moment n => .val (if w then Spec.wrawMoment n (xw as) else Spec.rawMoment n (xs as))
  | variance => .val (if w then Spec.wvariance (xw as) else Spec.variance (xs as))
  | abstractCovariance => .val (if w then Spec.wcovariance (xvw v0 as) else Spec.covariance (xv v0 as))
  | _ => .ub

/-- All statistics. -/
def stat (irr : StdF → ℕ → (StdF → Res K) → Res K) (w : Bool) (v0 : ℕ) (lo hi : K) (as : List (Args K)) :
    StdF → Res K
  | kurtosis => kurtosisResult (stat0 w v0 lo hi as (moment 2)) (stat0 w v0 lo hi as (moment 3))
      (stat0 w v0 lo hi as (moment 4)) (stat0 w v0 lo hi as mean)
  | skewness => irr skewness as.length (stat0 w v0 lo hi as)
  | errorOfMean => irr errorOfMean as.length (stat0 w v0 lo hi as)
  | k => stat0 w v0 lo hi as k

/-- The results with square roots look only at what they declare. -/
structure IrrOk (irr : StdF → ℕ → (StdF → Res K) → Res K) : Prop where
  skew : ∀ n n' rd rd', rd mean = rd' mean → rd (moment 2) = rd' (moment 2) → rd (moment 3) = rd' (moment 3) →
    irr skewness n rd = irr skewness n' rd'
  err : ∀ n rd rd', rd variance = rd' variance → irr errorOfMean n rd = irr errorOfMean n rd'

end ideal

section read
variable {K : Type} [Field K] [LinearOrder K] [IsStrictOrderedRing K]
variable {irr : StdF → ℕ → (StdF → Res K) → Res K} (hirr : IrrOk irr) {w : Bool} {v0 : ℕ} {lo hi : K}

open Args

theorem Args.length_xs (as : List (Args K)) : (xs as).length = as.length := List.length_map _
theorem Args.length_ws (as : List (Args K)) : (ws as).length = as.length := List.length_map _
theorem Args.length_vs (v : ℕ) (as : List (Args K)) : (vs v as).length = as.length := List.length_map _

theorem Args.wtotal_xw (as : List (Args K)) : Spec.wtotal (xw as) = (ws as).sum := by
  simp [Spec.wtotal, xw, ws, List.map_map, Function.comp_def]

theorem Args.wtotal_vw (v : ℕ) (as : List (Args K)) : Spec.wtotal (vw v as) = (ws as).sum := by
  simp [Spec.wtotal, vw, ws, List.map_map, Function.comp_def]

/-- Positive weights, in a set with weights. -/
def Args.Pos (w : Bool) (as : List (Args K)) : Prop := w = true → ∀ a ∈ as, 0 < a.w

theorem Args.Pos.init {as : List (Args K)} {a : Args K} (h : Pos w (as ++ [a])) : Pos w as :=
  fun hw b hb => h hw b (by simp [hb])

theorem Args.Pos.prefixes {as : List (Args K)} (h : Pos true as) : Spec.NonzeroPrefixes Args.w as :=
  nonzeroPrefixes_of_pos (h rfl)

theorem Args.Pos.sum_ne {as : List (Args K)} (h : Pos true as) (hne : as ≠ []) : (ws as).sum ≠ 0 :=
  h.prefixes.total hne

include hirr in
/-- The result of one accumulator. -/
theorem result_ideal {f : StdF} (hb : basic w v0 f = true) {as : List (Args K)} (hne : as ≠ []) (hpos : Pos w as)
    {n : ℕ} (hn : f = count ∨ count ∈ depBases f → n = as.length) {rd : StdF → Res K}
    (hrd : ∀ d ∈ depBases f, rd (key d) = stat irr w v0 lo hi as (key d)) :
    StatCell.result irr n rd f (ideal lo hi as f) = stat irr w v0 lo hi as (key f) := by
  have hlen : (as.length : K) ≠ 0 := length_cast_ne hne
  cases w with
  | false =>
    cases f <;> simp only [basic, Bool.not_false, Bool.false_and, Bool.true_and, Bool.false_eq_true,
      decide_eq_true_eq] at hb
    case count => simp [StatCell.result, stat, stat0, key, hn]
    case min | max | sum | sumKahan => simp [StatCell.result, StatCell.asNum, ideal, stat, stat0, key]
    case sumOfVariates | sumOfVariatesKahan =>
      subst hb; simp [StatCell.result, StatCell.asNum, ideal, stat, stat0, key]
    case mean =>
      have h1 := hrd sum (by simp [depBases])
      simp only [key, stat, stat0] at h1
      simp [StatCell.result, h1, stat, stat0, key, hn (by simp [depBases]), Res.bind, fdiv_ne hlen, Spec.mean,
        length_xs]
    case meanOfVariates v =>
      subst hb
      have h1 := hrd (sumOfVariates v) (by simp [depBases])
      simp only [key, stat, stat0] at h1
      simp [StatCell.result, h1, stat, stat0, key, hn (by simp [depBases]), Res.bind, fdiv_ne hlen, Spec.mean,
        length_vs]
    case immediateMean | immediateMeanOfVariates | variance => simp [StatCell.result, ideal, orZero, stat, stat0, key, hne]
    case covariance => subst hb; simp [StatCell.result, ideal, orZero, stat, stat0, key, hne]
    case moment =>
      simp [StatCell.result, StatCell.asNum, ideal, stat, stat0, key, hn (by simp [depBases]), Res.bind,
        fdiv_ne hlen, Spec.rawMoment, length_xs]
    case lazyVariance =>
      have h1 := hrd (moment 2) (by simp [depBases])
      have h2 := hrd mean (by simp [depBases])
      simp only [key, stat, stat0] at h1 h2
      have hx : xs as ≠ [] := by simpa [xs] using hne
      simp [StatCell.result, h1, h2, stat, stat0, key, lazyVarianceResult, Spec.variance, centralTwo_eq hx]
    case kurtosis =>
      have h1 := hrd (moment 2) (by simp [depBases])
      have h2 := hrd mean (by simp [depBases])
      have h3 := hrd (moment 3) (by simp [depBases])
      have h4 := hrd (moment 4) (by simp [depBases])
      simp only [key, stat] at h1 h2 h3 h4
      simp only [StatCell.result, h1, h2, h3, h4, stat, key]
    case skewness =>
      have h1 := hrd (moment 2) (by simp [depBases])
      have h2 := hrd mean (by simp [depBases])
      have h3 := hrd (moment 3) (by simp [depBases])
      exact hirr.skew _ _ _ _ h2 h1 h3
    case errorOfMean =>
      have h1 := hrd lazyVariance (by simp [depBases])
      rw [StatCell.result, hn (by simp [depBases])]
      exact hirr.err _ _ _ h1
  | true =>
    have hW : (ws as).sum ≠ 0 := hpos.sum_ne hne
    cases f <;> simp only [basic, Bool.not_true, Bool.false_and, Bool.true_and, Bool.false_eq_true,
      decide_eq_true_eq] at hb
    case count => simp [StatCell.result, stat, stat0, key, hn]
    case min | max | weightedSum | weightedSumKahan | sumOfWeights | sumOfWeightsKahan =>
      simp [StatCell.result, StatCell.asNum, ideal, stat, stat0, key]
    case weightedSumOfVariates | weightedSumOfVariatesKahan =>
      subst hb; simp [StatCell.result, StatCell.asNum, ideal, stat, stat0, key]
    case weightedMean =>
      have h1 := hrd weightedSum (by simp [depBases])
      have h2 := hrd sumOfWeights (by simp [depBases])
      simp only [key, stat, stat0] at h1 h2
      simp [StatCell.result, h1, h2, stat, stat0, key, Res.bind, fdiv_ne hW, Spec.wmean, wtotal_xw]
    case weightedMeanOfVariates v =>
      subst hb
      have h1 := hrd (weightedSumOfVariates v) (by simp [depBases])
      have h2 := hrd sumOfWeights (by simp [depBases])
      simp only [key, stat, stat0] at h1 h2
      simp [StatCell.result, h1, h2, stat, stat0, key, Res.bind, fdiv_ne hW, Spec.wmean, wtotal_vw]
    case meanOfWeights =>
      have h1 := hrd sumOfWeights (by simp [depBases])
      simp only [key, stat, stat0] at h1
      simp [StatCell.result, h1, stat, stat0, key, hn (by simp [depBases]), Res.bind, fdiv_ne hlen, Spec.mean,
        length_ws]
    case immediateWeightedMean | immediateMeanOfWeights | immediateWeightedMeanOfVariates | weightedVariance =>
      simp [StatCell.result, ideal, orZero, stat, stat0, key, hne]
    case weightedCovariance => subst hb; simp [StatCell.result, ideal, orZero, stat, stat0, key, hne]
    case weightedMoment =>
      have h2 := hrd sumOfWeights (by simp [depBases])
      simp only [key, stat, stat0] at h2
      simp [StatCell.result, StatCell.asNum, ideal, h2, stat, stat0, key, Res.bind, fdiv_ne hW, Spec.wrawMoment,
        wtotal_xw]
    case lazyWeightedVariance =>
      have h1 := hrd (weightedMoment 2) (by simp [depBases])
      have h2 := hrd weightedMean (by simp [depBases])
      simp only [key, stat, stat0] at h1 h2
      have hx : Spec.wtotal (xw as) ≠ 0 := by rw [wtotal_xw]; exact hW
      simp [StatCell.result, h1, h2, stat, stat0, key, lazyVarianceResult, Spec.wvariance, wcentralTwo_eq hx]
    case weightedKurtosis =>
      have h1 := hrd (weightedMoment 2) (by simp [depBases])
      have h2 := hrd weightedMean (by simp [depBases])
      have h3 := hrd (weightedMoment 3) (by simp [depBases])
      have h4 := hrd (weightedMoment 4) (by simp [depBases])
      simp only [key, stat] at h1 h2 h3 h4
      simp only [StatCell.result, h1, h2, h3, h4, stat, key]
    case weightedSkewness =>
      have h1 := hrd (weightedMoment 2) (by simp [depBases])
      have h2 := hrd weightedMean (by simp [depBases])
      have h3 := hrd (weightedMoment 3) (by simp [depBases])
      exact hirr.skew _ _ _ _ h2 h1 h3

/-- What an accumulator should hold, for streams with positive weights. -/
def GoodStat (w : Bool) (lo hi : K) (f : StdF) (as : List (Args K)) (c : StatCell K) : Prop :=
  Pos w as → c = ideal lo hi as f

theorem key_count {f : StdF} (hb : basic w v0 f = true) (h : key f = count) : f = count := by
  cases f <;> first | rfl | simp [key] at h

section set
variable {S : List (Tag StdF)} (hbas : ∀ t ∈ S, elemKey (stdLib.tkey t) = true → basic w v0 t.base = true)
  (hcomp : Complete stdLib S)

include hcomp in
/-- The provider of a dependency. -/
theorem provider {t : Tag StdF} (ht : t ∈ S) {d : StdF} (hd : d ∈ depBases t.base) :
    ∃ e ∈ S, Spec.Uses stdLib S t e ∧ stdLib.tkey e = key d := by
  have hd' : (⟨d, false⟩ : Tag StdF) ∈ stdLib.deps t.base := List.mem_map.2 ⟨d, hd, rfl⟩
  obtain ⟨e, he, hk⟩ := hcomp t ht _ hd'
  exact ⟨e, he, .direct he hd' hk.symm, hk⟩

include hbas hcomp in
theorem countOf_eq {t : Tag StdF} (ht : t ∈ S) {as : List (Args K)} {env : Env StdF (StatCell K)}
    (hpos : Pos w as) (hu : ∀ e, Spec.Uses stdLib S t e → Holds stdLib (GoodStat w lo hi) as env e)
    (hc : count ∈ depBases t.base) : StatCell.countOf env = as.length := by
  obtain ⟨e, he, hue, hk⟩ := provider hcomp ht hc
  obtain ⟨s, h1, h2⟩ := hu e hue
  have hb := key_count (hbas e he (by rw [hk]; rfl)) hk
  rw [hk, hb, h2 hpos, hb] at h1
  simp only [key, ideal] at h1
  simp [StatCell.countOf, h1]

include hirr hbas hcomp in
theorem readN_ideal {as : List (Args K)} (hne : as ≠ []) (hpos : Pos w as) {env : Env StdF (StatCell K)}
    (m : ℕ) : ∀ t ∈ S, elemKey (stdLib.tkey t) = true → stdLib.rank (stdLib.tkey t) < m →
      (∀ e, Below stdLib S t e → Holds stdLib (GoodStat w lo hi) as env e) →
      StatCell.readN irr env m (stdLib.tkey t) = stat irr w v0 lo hi as (stdLib.tkey t) := by
  induction m with
  | zero => intro t _ _ h; omega
  | succ m ih =>
    intro t ht htk hm hh
    obtain ⟨s, h1, h2⟩ := hh t (Or.inl rfl)
    rw [StatCell.readN, h1]
    dsimp only
    rw [h2 hpos]
    refine result_ideal hirr (hbas t ht htk) hne hpos ?_ fun d hd => ?_
    · rintro (hc | hc)
      · rw [hc, h2 hpos, hc] at h1
        have hk : stdLib.tkey t = count := by rw [Lib.tkey, hc]; rfl
        rw [hk] at h1
        have h1' : env count = some (count, .nat as.length) := h1
        simp [StatCell.countOf, h1']
      · exact countOf_eq hbas hcomp ht hpos (fun e he => hh e (Or.inr he)) hc
    · obtain ⟨e, he, hue, hk⟩ := provider hcomp ht hd
      rw [← hk]
      refine ih e he (by rw [hk]; exact basic_depKey (hbas t ht htk) hd) ?_ fun x hx => hh x ?_
      · have := uses_rank stdLib_ok hue
        omega
      · rcases hx with rfl | hx
        · exact Or.inr hue
        · exact Or.inr (uses_trans hue hx)

include hirr hbas hcomp in
/-- Extracting a feature gives its value, if its accumulator and those it uses hold what they should. -/
theorem read_ideal {as : List (Args K)} (hne : as ≠ []) (hpos : Pos w as) {env : Env StdF (StatCell K)}
    {t : Tag StdF} (ht : t ∈ S) (htk : elemKey (stdLib.tkey t) = true)
    (hh : ∀ e, Below stdLib S t e → Holds stdLib (GoodStat w lo hi) as env e) :
    StatCell.read irr env (stdLib.tkey t) = stat irr w v0 lo hi as (stdLib.tkey t) :=
  readN_ideal hirr hbas hcomp hne hpos _ t ht htk (Nat.lt_succ_self _) hh

theorem weighted_mean_deps {f : StdF} (hb : basic true v0 f = true) (h : key f = mean) :
    sumOfWeights ∈ depBases f := by
  cases f <;> first | (cases h; done) | (cases hb; done) | simp [depBases]

include hcomp hbas in
/-- `weighted_variance` reads the sum of the weights, which it does not declare; the mean does. -/
theorem provider_sow {t : Tag StdF} (ht : t ∈ S) (hw : w = true) (hd : immediateWeightedMean ∈ depBases t.base) :
    ∃ e ∈ S, Spec.Uses stdLib S t e ∧ stdLib.tkey e = sumOfWeights := by
  obtain ⟨e, he, hue, hk⟩ := provider hcomp ht hd
  have hb := hbas e he (by rw [hk]; rfl)
  have : sumOfWeights ∈ depBases e.base := by
    subst hw
    exact weighted_mean_deps hb hk
  obtain ⟨e', he', hue', hk'⟩ := provider hcomp he this
  exact ⟨e', he', uses_trans hue hue', hk'⟩

theorem xs_append (as : List (Args K)) (a : Args K) : xs (as ++ [a]) = xs as ++ [a.x] := by simp [xs]
theorem ws_append (as : List (Args K)) (a : Args K) : ws (as ++ [a]) = ws as ++ [a.w] := by simp [ws]
theorem vs_append (v : ℕ) (as : List (Args K)) (a : Args K) : vs v (as ++ [a]) = vs v as ++ [a.v v] := by simp [vs]
theorem xw_append (as : List (Args K)) (a : Args K) : xw (as ++ [a]) = xw as ++ [(a.x, a.w)] := by simp [xw]
theorem vw_append (v : ℕ) (as : List (Args K)) (a : Args K) : vw v (as ++ [a]) = vw v as ++ [(a.v v, a.w)] := by
  simp [vw]
theorem xv_append (v : ℕ) (as : List (Args K)) (a : Args K) : xv v (as ++ [a]) = xv v as ++ [(a.x, a.v v)] := by
  simp [xv]
theorem xvw_append (v : ℕ) (as : List (Args K)) (a : Args K) :
    xvw v (as ++ [a]) = xvw v as ++ [((a.x, a.v v), a.w)] := by
  simp [xvw]

theorem kahan_step_zero (s x : K) : Kahan.step ⟨s, 0⟩ x = ⟨s + x, 0⟩ := by simp [Kahan.step]
theorem weightedKahan_step_zero (s x y : K) : weightedKahanStep ⟨s, 0⟩ (x, y) = ⟨s + y * x, 0⟩ := by
  simp [weightedKahanStep, mul_comm]

include hirr hbas hcomp in
/-- Every update does its part. -/
theorem stat_stepOk (t : Tag StdF) (ht : t ∈ S) (htk : elemKey (stdLib.tkey t) = true) :
    StepOk stdLib (statImpl irr lo hi) S (GoodStat w lo hi) t := by
  intro as a env hown huse hpos
  obtain ⟨c, hc1, hc2⟩ := hown
  rw [hc2 hpos.init] at hc1
  have hb := hbas t ht htk
  have hne : as ++ [a] ≠ [] := by simp
  -- what the accumulators below hold
  have hread : ∀ {e}, e ∈ S → elemKey (stdLib.tkey e) = true → Spec.Uses stdLib S t e →
      StatCell.read irr env (stdLib.tkey e) = stat irr w v0 lo hi (as ++ [a]) (stdLib.tkey e) := by
    intro e he hek hue
    refine read_ideal hirr hbas hcomp hne hpos he hek fun x hx => ?_
    rcases hx with rfl | hx
    · exact huse _ hue
    · exact huse _ (uses_trans hue hx)
  have hdep : ∀ d ∈ depBases t.base,
      StatCell.read irr env (key d) = stat irr w v0 lo hi (as ++ [a]) (key d) := by
    intro d hd
    obtain ⟨e, he, hue, hk⟩ := provider hcomp ht hd
    rw [← hk]
    exact hread he (by rw [hk]; exact basic_depKey hb hd) hue
  have hsow : w = true → immediateWeightedMean ∈ depBases t.base →
      StatCell.read irr env sumOfWeights = stat irr w v0 lo hi (as ++ [a]) sumOfWeights := by
    intro hw hd
    obtain ⟨e, he, hue, hk⟩ := provider_sow hbas hcomp ht hw hd
    rw [← hk]
    exact hread he (by rw [hk]; rfl) hue
  have hcnt : count ∈ depBases t.base → StatCell.countOf env = as.length + 1 := by
    intro h
    have := countOf_eq hbas hcomp ht hpos huse h
    simpa using this
  have hx0 : xs as = [] ↔ as = [] := by simp [xs]
  have hw0 : ws as = [] ↔ as = [] := by simp [ws]
  have hv0 : ∀ v, vs v as = [] ↔ as = [] := by simp [vs]
  have hxw0 : xw as = [] ↔ as = [] := by simp [xw]
  have hvw0 : ∀ v, vw v as = [] ↔ as = [] := by simp [vw]
  have hxv0 : ∀ v, xv v as = [] ↔ as = [] := by simp [xv]
  have hxvw0 : ∀ v, xvw v as = [] ↔ as = [] := by simp [xvw]
  revert hc1 hb hdep hsow hcnt
  unfold Lib.tkey
  show env (key t.base) = _ → _ → _ → _ → _ → _
  generalize t.base = f
  intro hc1 hb hdep hsow hcnt
  cases w with
  | false =>
    cases f <;> simp only [basic, Bool.not_false, Bool.false_and, Bool.true_and, Bool.false_eq_true,
      decide_eq_true_eq] at hb <;> simp only [key, ideal, orZero] at hc1 <;> simp only [statImpl, ideal, orZero]
    case count => simp [StatCell.countOf, hc1]
    case min => simp [StatCell.numAt, hc1, minRun, xs_append]
    case max => simp [StatCell.numAt, hc1, maxRun, xs_append]
    case sum => simp [StatCell.numAt, hc1, xs_append, sumStep]
    case sumOfVariates => simp [StatCell.numAt, hc1, vs_append, sumStep]
    case sumKahan => simp [StatCell.kahanAt, hc1, xs_append, kahan_step_zero]
    case sumOfVariatesKahan => simp [StatCell.kahanAt, hc1, vs_append, kahan_step_zero]
    case moment => simp [StatCell.numAt, hc1, xs_append, mpow_eq]
    case immediateMean =>
      have := immMeanStep_spec (xs as) a.x
      simp only [length_xs, hx0] at this
      simp [StatCell.resAt, hc1, xs_append, hcnt (by simp [depBases]), this]
    case immediateMeanOfVariates v =>
      have := immMeanStep_spec (vs v as) (a.v v)
      simp only [length_vs, hv0] at this
      simp [StatCell.resAt, hc1, vs_append, hcnt (by simp [depBases]), this]
    case variance =>
      have := varianceStep_spec (xs as) a.x
      simp only [length_xs, hx0] at this
      have hm := hdep immediateMean (by simp [depBases])
      simp only [key, stat, stat0, xs_append, Bool.false_eq_true, if_false] at hm
      simp [StatCell.resAt, hc1, xs_append, hcnt (by simp [depBases]), hm, this]
    case covariance v =>
      subst hb
      have := covarianceStep_spec (xv v as) (a.x, a.v v)
      have e1 : ((xv v as ++ [(a.x, a.v v)]).map Prod.fst) = xs as ++ [a.x] := by
        simp [xv, xs, List.map_map, Function.comp_def]
      have e2 : ((xv v as ++ [(a.x, a.v v)]).map Prod.snd) = vs v as ++ [a.v v] := by
        simp [xv, vs, List.map_map, Function.comp_def]
      have e3 : (xv v as).length = as.length := by simp [xv]
      rw [e1, e2, e3] at this
      simp only [hxv0] at this
      have hm := hdep mean (by simp [depBases])
      have hy := hdep (meanOfVariates v) (by simp [depBases])
      simp only [key, stat, stat0, xs_append, vs_append, Bool.false_eq_true, if_false] at hm hy
      simp [StatCell.resAt, hc1, xv_append, hcnt (by simp [depBases]), hm, hy, this]
  | true =>
    have hnz := hpos.prefixes
    have hnzx : Spec.NonzeroPrefixes Prod.snd (xw as ++ [(a.x, a.w)]) := by
      rw [← xw_append]; exact hnz.map fun _ => rfl
    have hnzv : ∀ v, Spec.NonzeroPrefixes Prod.snd (vw v as ++ [(a.v v, a.w)]) := by
      intro v
      rw [← vw_append]; exact hnz.map fun _ => rfl
    have hnzxv : ∀ v, Spec.NonzeroPrefixes Prod.snd (xvw v as ++ [((a.x, a.v v), a.w)]) := by
      intro v
      rw [← xvw_append]; exact hnz.map fun _ => rfl
    have hwx : (ws as ++ [a.w]).sum = Spec.wtotal (xw as ++ [(a.x, a.w)]) := by
      rw [← xw_append, wtotal_xw, ws_append]
    have hwv : ∀ v, (ws as ++ [a.w]).sum = Spec.wtotal (vw v as ++ [(a.v v, a.w)]) := by
      intro v
      rw [← vw_append, wtotal_vw, ws_append]
    cases f <;> simp only [basic, Bool.not_true, Bool.false_and, Bool.true_and, Bool.false_eq_true,
      decide_eq_true_eq] at hb <;> simp only [key, ideal, orZero] at hc1 <;> simp only [statImpl, ideal, orZero]
    case count => simp [StatCell.countOf, hc1]
    case min => simp [StatCell.numAt, hc1, minRun, xs_append]
    case max => simp [StatCell.numAt, hc1, maxRun, xs_append]
    case sumOfWeights => simp [StatCell.numAt, hc1, ws_append, sumStep]
    case sumOfWeightsKahan => simp [StatCell.kahanAt, hc1, ws_append, kahan_step_zero]
    case weightedSum => simp [StatCell.numAt, hc1, xw_append, weightedSumStep, mul_comm]
    case weightedSumOfVariates => simp [StatCell.numAt, hc1, vw_append, weightedSumStep, mul_comm]
    case weightedSumKahan => simp [StatCell.kahanAt, hc1, xw_append, weightedKahan_step_zero]
    case weightedSumOfVariatesKahan => simp [StatCell.kahanAt, hc1, vw_append, weightedKahan_step_zero]
    case weightedMoment => simp [StatCell.numAt, hc1, xw_append, mpow_eq]
    case immediateMeanOfWeights =>
      have := immMeanStep_spec (ws as) a.w
      simp only [length_ws, hw0] at this
      simp [StatCell.resAt, hc1, ws_append, hcnt (by simp [depBases]), this]
    case immediateWeightedMean =>
      have := immWMeanStep_spec (xw as) (a.x, a.w) hnzx
      simp only [hxw0, ← hwx] at this
      have hm := hdep sumOfWeights (by simp [depBases])
      simp only [key, stat, stat0, ws_append] at hm
      simp only [StatCell.resAt, hc1, xw_append, hm, Res.bind, this]
      simp
    case immediateWeightedMeanOfVariates v =>
      have := immWMeanStep_spec (vw v as) (a.v v, a.w) (hnzv v)
      simp only [hvw0, ← hwv] at this
      have hm := hdep sumOfWeights (by simp [depBases])
      simp only [key, stat, stat0, ws_append] at hm
      simp only [StatCell.resAt, hc1, vw_append, hm, Res.bind, this]
      simp
    case weightedVariance =>
      have := weightedVarianceStep_spec (xw as) (a.x, a.w) hnzx
      have e3 : (xw as).length = as.length := by simp [xw]
      simp only [hxw0, ← hwx, e3] at this
      have hs := hsow rfl (by simp [depBases])
      have hm := hdep immediateWeightedMean (by simp [depBases])
      simp only [key, stat, stat0, ws_append, xw_append, if_true] at hm hs
      simp only [StatCell.resAt, hc1, xw_append, hm, hs, Res.bind, hcnt (by simp [depBases]), this]
      simp
    case weightedCovariance v =>
      subst hb
      have := weightedCovarianceStep_spec (xvw v as) ((a.x, a.v v), a.w) (hnzxv v)
      have e1 : ((xvw v as ++ [((a.x, a.v v), a.w)]).map fun q => (q.1.1, q.2)) = xw as ++ [(a.x, a.w)] := by
        simp [xvw, xw, List.map_map, Function.comp_def]
      have e2 : ((xvw v as ++ [((a.x, a.v v), a.w)]).map fun q => (q.1.2, q.2)) = vw v as ++ [(a.v v, a.w)] := by
        simp [xvw, vw, List.map_map, Function.comp_def]
      have e3 : (xvw v as).length = as.length := by simp [xvw]
      have e4 : (xvw v as ++ [((a.x, a.v v), a.w)]).map Prod.snd = ws as ++ [a.w] := by
        simp [xvw, ws, List.map_map, Function.comp_def]
      rw [e1, e2, e3, e4] at this
      simp only [hxvw0] at this
      have hs := hdep sumOfWeights (by simp [depBases])
      have hm := hdep weightedMean (by simp [depBases])
      have hy := hdep (weightedMeanOfVariates v) (by simp [depBases])
      simp only [key, stat, stat0, xw_append, vw_append, ws_append, if_true] at hm hy hs
      simp only [StatCell.resAt, hc1, xvw_append, hcnt (by simp [depBases]), hm, hy, hs, Res.bind, this]
      simp

end set

theorem stat_init (f : StdF) : GoodStat w lo hi f [] ((statImpl irr lo hi).init f) := by
  intro _
  cases f <;> simp [statImpl, ideal, orZero, xs, ws, vs, xw, vw, minRun, maxRun, asMax, Kahan.init]

end read

end Acc
