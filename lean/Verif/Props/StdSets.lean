import Verif.Proofs.StdSets
import Verif.Model.RollSet
import Mathlib.Algebra.Order.Ring.Rat

/-!
# C42–C48 for the features of the statistics library

Which combinations are updated in the right order, and what goes wrong with the others.
-/

set_option linter.unusedSectionVars false

namespace Acc

open StdF

section std
variable (w : Bool) {ord : List (Tag StdF) → List (Tag StdF)} (hord : ∀ l, (ord l).Perm l)
  (req : List (Tag StdF))

theorem nice_accumulators (q : QFamily) (hord : ∀ l, (ord l).Perm l)
    (h : ∀ t ∈ stdLib.asList w req, nice w q t.base = true) :
    ∀ t ∈ stdLib.accumulators w ord req, nice w q t.base = true := by
  have hstep : ∀ t d : Tag StdF, d ∈ stdLib.asList w (stdLib.tdeps t) → nice w q t.base = true →
      nice w q d.base = true := by
    intro t d hd ht
    have hd0 : ∃ d0 ∈ depBases t.base, d.base = if w then weighted d0 else d0 := by
      have hb : ∀ d ∈ stdLib.tdeps t, d.base ∈ depBases t.base := by
        intro d hd
        unfold Lib.tdeps at hd
        split at hd
        · obtain ⟨d1, h1, rfl⟩ := List.mem_map.1 hd
          obtain ⟨d2, h2, rfl⟩ := List.mem_map.1 h1
          exact h2
        · obtain ⟨d2, h2, rfl⟩ := List.mem_map.1 hd
          exact h2
      unfold Lib.asList at hd
      cases w with
      | false => exact ⟨d.base, hb d hd, rfl⟩
      | true =>
        obtain ⟨d1, h1, rfl⟩ := List.mem_map.1 hd
        exact ⟨d1.base, hb d1 h1, rfl⟩
    obtain ⟨d0, h0, e⟩ := hd0
    have := nice_deps w q t.base
    rw [ht] at this
    simp only [Bool.not_true, Bool.false_or, List.all_eq_true] at this
    rw [e]
    exact this d0 h0
  have hneeds : ∀ t d : Tag StdF, Spec.Needs stdLib w t d → nice w q t.base = true →
      nice w q d.base = true := by
    intro t d hd
    induction hd with
    | direct h1 => exact hstep _ _ h1
    | step h1 _ ih => exact fun ht => ih (hstep _ _ h1 ht)
  intro t ht
  obtain ⟨r, ⟨a, b, e, -⟩, hr⟩ := C42_nothing_else stdLib_ok w hord req ht
  have hrn := h r (by rw [e]; simp)
  rcases hr with rfl | hr
  · exact hrn
  · exact hneeds r t hr hrn

/-- C44 for the statistics library: sets of the features listed in `plain` (without weights) or `heavy` (with
weights) are updated in dependency order, whatever the order of the request and of the compile-time maps. -/
theorem C44_std (q : QFamily) (hord : ∀ l, (ord l).Perm l)
    (h : ∀ t ∈ stdLib.asList w req, nice w q t.base = true) :
    Compatible stdLib (stdLib.accumulators w ord req) ∧
    Spec.Ordered stdLib (stdLib.accumulators w ord req) := by
  have hn := nice_accumulators w req q hord h
  have hc : Compatible stdLib (stdLib.accumulators w ord req) := by
    intro p hp a ha hanc g hg
    have h1 := upper_bounds w q a.base
    have h2 := upper_known w q p.base
    rw [hn a ha] at h1
    rw [hn p hp] at h2
    simp only [Bool.not_true, Bool.false_or, Bool.or_eq_true, List.all_eq_true, List.contains_iff_mem] at h1
    simp only [Bool.not_true, Bool.false_or, List.all_eq_true, Bool.and_eq_true, Bool.not_eq_true',
      List.contains_iff_mem] at h2
    rw [← Lib.mem_bases stdLib_ok] at hanc hg ⊢
    obtain ⟨h3, h4⟩ := h2 _ hanc
    rcases h1 with h1 | h1
    · change isTop (stdLib.tkey a) = true at h1
      rw [h1] at h3
      cases h3
    · exact h4 g (h1 g hg)
  exact ⟨hc, C44_order_partial stdLib_ok w hord req hc⟩

end std

/-- Undecorated and droppable features. -/
def tg (f : StdF) : Tag StdF := ⟨f, false⟩
def dr (f : StdF) : Tag StdF := ⟨f, true⟩

theorem before_idx {α : Type} [DecidableEq α] {l : List α} (hnd : l.Nodup) {a b : α} (h : Spec.Before l a b) :
    l.idxOf a < l.idxOf b := by
  obtain ⟨x, y, z, rfl⟩ := h
  have e : x ++ a :: y ++ b :: z = (x ++ a :: y) ++ b :: z := by simp
  rw [e] at hnd ⊢
  have hb : b ∉ x ++ a :: y := by
    intro hb
    rw [List.nodup_append] at hnd
    exact hnd.2.2 b hb b (by simp) rfl
  have ha : a ∈ x ++ a :: y := by simp
  rw [List.idxOf_append_of_mem ha, List.idxOf_append_of_notMem hb]
  have := List.idxOf_lt_length_of_mem ha
  omega

/-- C44 fails in general: `features<rolling_variance, lazy_rolling_mean>`.  `rolling_variance` reads the rolling
mean while it is updated; the installed `lazy_rolling_mean` computes it from `rolling_sum`, which nobody told
`rolling_variance` about, and which is updated afterwards.  (The iteration order of the compile-time maps here is the
order of insertion.) -/
theorem C44_fails :
    ∃ u ∈ stdLib.accumulators false id [tg rollingVariance, tg lazyRollingMean],
    ∃ t ∈ stdLib.accumulators false id [tg rollingVariance, tg lazyRollingMean],
      Spec.Uses stdLib (stdLib.accumulators false id [tg rollingVariance, tg lazyRollingMean]) u t ∧
      ¬ Spec.Before (stdLib.accumulators false id [tg rollingVariance, tg lazyRollingMean]) t u ∧
      Spec.Before (stdLib.accumulators false id [tg rollingVariance, tg lazyRollingMean]) u t := by
  have e : stdLib.accumulators false id [tg rollingVariance, tg lazyRollingMean]
      = [tg rollingWindowPlus1, tg StdF.rollingCount, tg lazyRollingMean, tg rollingVariance, tg rollingSum] := by
    decide +kernel
  rw [e]
  refine ⟨tg rollingVariance, by simp, tg rollingSum, by simp, ?_, ?_, ?_⟩
  · refine .step (a := tg lazyRollingMean) (d := tg immediateRollingMean) (by simp) (by decide +kernel)
      (by decide +kernel) (.direct (d := tg rollingSum) (by simp) (by decide +kernel) rfl)
  · intro h
    have := before_idx (by decide +kernel) h
    revert this
    decide +kernel
  · exact ⟨[tg rollingWindowPlus1, tg StdF.rollingCount, tg lazyRollingMean], [], [], rfl⟩

/-- The accumulators of `rollImpl` look only at what they declare. -/
theorem rollImpl_local {K : Type} [Field K] [LinearOrder K] (N : ℕ) (x : K) :
    Spec.Local stdLib fun f env => (rollImpl N).upd f env x := by
  intro f env env' hself hvis
  -- fetching the window
  have hwin : ∀ {d : Tag StdF}, d ∈ stdLib.deps f → d.base = rollingWindowPlus1 →
      RollCell.windowOf env = RollCell.windowOf env' := by
    intro d hd hb
    have := hvis _ (.dep hd)
    rw [Lib.tkey, hb] at this
    unfold RollCell.windowOf
    rw [show env rollingWindowPlus1 = env' rollingWindowPlus1 from this]
  have hdep : ∀ d ∈ depBases f, tg d ∈ stdLib.deps f := fun d hd => List.mem_map.2 ⟨d, hd, rfl⟩
  have hmean : tg immediateRollingMean ∈ stdLib.deps f → ∀ b,
      RollCell.meanOf env b = RollCell.meanOf env' b := by
    intro hd b
    have h1 : env rollingMean = env' rollingMean := hvis _ (.dep hd)
    unfold RollCell.meanOf
    rw [← h1]
    split
    · rename_i s hs
      have hd' : tg rollingSum ∈ stdLib.deps lazyRollingMean := by decide +kernel
      have h2 : env rollingSum = env' rollingSum := hvis _ (.via hd hs (.dep hd'))
      unfold RollCell.numOf
      rw [h2]
    · rfl
    · rfl
  cases f with
  | rollingWindowPlus1 =>
    have h1 : env rollingWindowPlus1 = env' rollingWindowPlus1 := hself
    simp only [rollImpl, RollCell.withWindow, RollCell.windowOf, h1]
  | rollingSum =>
    have h1 : env rollingSum = env' rollingSum := hself
    have h2 := hwin (hdep rollingWindowPlus1 (by simp [depBases])) rfl
    simp only [rollImpl, RollCell.withWindow, RollCell.numOf, h1, h2]
  | immediateRollingMean =>
    have h1 : env rollingMean = env' rollingMean := hself
    have h2 := hwin (hdep rollingWindowPlus1 (by simp [depBases])) rfl
    simp only [rollImpl, RollCell.withWindow, RollCell.numOf, h1, h2]
  | rollingMean =>
    have h1 : env rollingMean = env' rollingMean := hself
    have h2 := hwin (hdep rollingWindowPlus1 (by simp [depBases])) rfl
    simp only [rollImpl, RollCell.withWindow, RollCell.numOf, h1, h2]
  | rollingVariance =>
    have h1 : env rollingVariance = env' rollingVariance := hself
    have h2 := hwin (hdep rollingWindowPlus1 (by simp [depBases])) rfl
    have h3 := hmean (hdep immediateRollingMean (by simp [depBases]))
    simp only [rollImpl, RollCell.withWindow, h1, h2, h3]
  | immediateRollingVariance =>
    have h1 : env rollingVariance = env' rollingVariance := hself
    have h2 := hwin (hdep rollingWindowPlus1 (by simp [depBases])) rfl
    have h3 := hmean (hdep immediateRollingMean (by simp [depBases]))
    simp only [rollImpl, RollCell.withWindow, h1, h2, h3]
  | _ => rfl

/-- Run the rolling accumulators in a set. -/
def rollVarianceIn (req : List (Tag StdF)) (xs : List ℚ) : Res ℚ :=
  (stdLib.runOps (rollImpl 2) (stdLib.accumulators false id req)
    (stdLib.construct (rollImpl 2) (stdLib.accumulators false id req) req) (xs.map .push)).bind
    fun s => RollCell.varianceOf s.env

/-- C45 fails together with C44: the same two features, listed in the other order, installing the same
accumulators, give another rolling variance.  The samples are 0, 2, 4 with a window of 2: the variance of 2, 4
is 2; the set `features<rolling_variance, lazy_rolling_mean>` says 16. -/
theorem C45_fails :
    SameBelow stdLib (stdLib.accumulators false id [tg rollingVariance, tg lazyRollingMean])
      (stdLib.accumulators false id [tg lazyRollingMean, tg rollingVariance]) (tg rollingVariance)
      (tg rollingVariance) ∧
    rollVarianceIn [tg lazyRollingMean, tg rollingVariance] [0, 2, 4] = .val 2 ∧
    rollVarianceIn [tg rollingVariance, tg lazyRollingMean] [0, 2, 4] = .val 16 := by
  have e1 : stdLib.accumulators false id [tg rollingVariance, tg lazyRollingMean]
      = [tg rollingWindowPlus1, tg StdF.rollingCount, tg lazyRollingMean, tg rollingVariance, tg rollingSum] := by
    decide +kernel
  have e2 : stdLib.accumulators false id [tg lazyRollingMean, tg rollingVariance]
      = [tg rollingWindowPlus1, tg rollingSum, tg StdF.rollingCount, tg lazyRollingMean, tg rollingVariance] := by
    decide +kernel
  refine ⟨?_, by decide +kernel, by decide +kernel⟩
  rw [e1, e2]
  refine ⟨by simp, by simp, rfl, fun t ht => ?_⟩
  have := uses_mem ht
  exact ⟨t, by simp only [List.mem_cons, List.not_mem_nil, or_false] at this ⊢; tauto, rfl⟩

/-- C42, a consequence of "one accumulator per feature": the means of two different covariates share one abstract
sum.  In `features<mean_of_variates<V, v1>, mean_of_variates<V, v2>>` both means are installed, but only the
sum of the first covariate: `mean_of_variates<V, v2>` depends on `sum_of_variates<V, v2>`, which is not there. -/
theorem C42_covariates_collide :
    tg (meanOfVariates 2) ∈ stdLib.accumulators false id [tg (meanOfVariates 1), tg (meanOfVariates 2)] ∧
    tg (sumOfVariates 2) ∈ stdLib.deps (meanOfVariates 2) ∧
    tg (sumOfVariates 2) ∉ stdLib.accumulators false id [tg (meanOfVariates 1), tg (meanOfVariates 2)] ∧
    stdLib.find (stdLib.accumulators false id [tg (meanOfVariates 1), tg (meanOfVariates 2)])
      (tg (sumOfVariates 2)) = some (tg (sumOfVariates 1)) := by
  decide +kernel

/-- C42, likewise: a left and a right tail in one set share the accumulator of the first; here the right tail mean
works on the cache of the left tail. -/
theorem C42_tails_collide :
    tg (nonCoherentTailMean .right) ∈
      stdLib.accumulators false id [tg (tailQuantile .left), tg (nonCoherentTailMean .right)] ∧
    stdLib.find (stdLib.accumulators false id [tg (tailQuantile .left), tg (nonCoherentTailMean .right)])
      (tg (StdF.tail .right)) = some (tg (StdF.tail .left)) := by
  decide +kernel

/-- The counts after some drops. -/
def refsAfter (w : Bool) (req fs : List (Tag StdF)) : Res (StdF → ℕ) :=
  fs.foldlM (stdLib.dropFeature (stdLib.accumulators w id req))
    (stdLib.initRefs (stdLib.accumulators w id req) req)

/-- C48 fails when the installed variant has fewer dependencies than the default one: in
`features<droppable<immediate_mean>, droppable<sum>>` the call `drop<tag::immediate_mean>()` also drops `sum`, because
the dependencies of `mean` are visited instead of those of `immediate_mean`. -/
theorem C48_fails :
    dr sum ∈ stdLib.accumulators false id [dr immediateMean, dr sum] ∧
    (refsAfter false [dr immediateMean, dr sum] []).bind (fun c => .val (c sum)) = .val 1 ∧
    (refsAfter false [dr immediateMean, dr sum] [dr immediateMean]).bind (fun c => .val (c sum)) = .val 0 := by
  decide +kernel

/-- C48, and a later legal `drop<tag::sum>()` then fails the assertion. -/
theorem C48_fails_assertion :
    refsAfter false [dr immediateMean, dr sum] [dr immediateMean, dr sum] = .ub := by
  have h : (refsAfter false [dr immediateMean, dr sum] [dr immediateMean, dr sum]).bind
      (fun c => .val (c sum)) = .ub := by decide +kernel
  revert h
  cases refsAfter false [dr immediateMean, dr sum] [dr immediateMean, dr sum] <;> simp [Res.bind]

/-- C48, release fails with weights: after `drop<tag::weighted_mean>()` nothing needs `sum_of_weights` any more, but
it is never dropped. -/
theorem C48_never_released :
    dr sumOfWeights ∈ stdLib.accumulators true id [dr mean] ∧
    (refsAfter true [dr mean] [dr mean]).bind (fun c => .val (c mean, c sum, c sumOfWeights)) = .val (0, 0, 1) := by
  decide +kernel

/-! ## The hypotheses are met -/

/-- C42: if the first variance of the list is the lazy one (`tag::lazy_variance`, `tag::variance(lazy)`), then the count,
the sum, the mean and the second moment it is computed from can be extracted too, in a set with or without weights. -/
theorem C42_lazy_variance (w : Bool) {ord : List (Tag StdF) → List (Tag StdF)} (hord : ∀ l, (ord l).Perm l)
    (req : List (Tag StdF)) (b : Bool)
    (hr : Spec.FirstOfKind stdLib (stdLib.asList w req) ⟨if w then lazyWeightedVariance else lazyVariance, b⟩) :
    ∀ k ∈ [count, StdF.sum, StdF.mean, moment 2], ∃! e, e ∈ stdLib.accumulators w ord req ∧ stdLib.tkey e = k := by
  have h := (C42_closure stdLib_ok w hord req).2 _ hr
  have d : ∀ k ∈ [count, StdF.sum, StdF.mean, moment 2],
      ∃ d, Spec.Needs stdLib w ⟨if w then lazyWeightedVariance else lazyVariance, b⟩ d ∧ stdLib.tkey d = k := by
    intro k hk
    cases w with
    | false =>
      have hm : (⟨mean, b⟩ : Tag StdF) ∈ stdLib.asList false (stdLib.tdeps ⟨lazyVariance, b⟩) := by
        cases b <;> decide +kernel
      have hm2 : (⟨moment 2, b⟩ : Tag StdF) ∈ stdLib.asList false (stdLib.tdeps ⟨lazyVariance, b⟩) := by
        cases b <;> decide +kernel
      simp only [List.mem_cons, List.not_mem_nil, or_false] at hk
      rcases hk with rfl | rfl | rfl | rfl
      · exact ⟨⟨count, b⟩, .step hm (.direct (by cases b <;> decide +kernel)), rfl⟩
      · exact ⟨⟨sum, b⟩, .step hm (.direct (by cases b <;> decide +kernel)), rfl⟩
      · exact ⟨_, .direct hm, rfl⟩
      · exact ⟨_, .direct hm2, rfl⟩
    | true =>
      have hm : (⟨weightedMean, b⟩ : Tag StdF) ∈ stdLib.asList true (stdLib.tdeps ⟨lazyWeightedVariance, b⟩) := by
        cases b <;> decide +kernel
      have hm2 : (⟨weightedMoment 2, b⟩ : Tag StdF) ∈ stdLib.asList true (stdLib.tdeps ⟨lazyWeightedVariance, b⟩) := by
        cases b <;> decide +kernel
      simp only [List.mem_cons, List.not_mem_nil, or_false] at hk
      rcases hk with rfl | rfl | rfl | rfl
      · exact ⟨⟨count, b⟩, .step hm2 (.direct (by cases b <;> decide +kernel)), rfl⟩
      · exact ⟨⟨weightedSum, b⟩, .step hm (.direct (by cases b <;> decide +kernel)), rfl⟩
      · exact ⟨_, .direct hm, rfl⟩
      · exact ⟨_, .direct hm2, rfl⟩
  intro k hk
  obtain ⟨d, h1, rfl⟩ := d k hk
  exact h d h1

/-- The features of the unweighted statistics that take notice of a weight in their weighted version (the headers
`weighted_*.hpp`). -/
def Spec.unweightedStatistic : StdF → Bool
  | sum | sumKahan | mean | immediateMean | meanOfVariates _ | immediateMeanOfVariates _ | moment _ | variance | lazyVariance
  | skewness | kurtosis | covariance _ | density | pSquareQuantile | pSquareCumul | extendedPSquare | extendedPSquareQuantile
  | extendedPSquareQuantileQuadratic | median | withDensityMedian | withCumulMedian | tailQuantile _ | nonCoherentTailMean _
  | absoluteTailVariateMeans _ _ | relativeTailVariateMeans _ _ | peaksOverThreshold _ | peaksOverThresholdProb _
  | potQuantile _ | potQuantileProb _ | potTailMean _ | potTailMeanProb _ => true
  | _ => false

/-- C42: a set with weights contains no accumulator that ignores them although there is a weighted version, neither requested
nor as a dependency. -/
theorem C42_weights_respected {ord : List (Tag StdF) → List (Tag StdF)} (hord : ∀ l, (ord l).Perm l) (req : List (Tag StdF)) :
    ∀ t ∈ stdLib.accumulators true ord req, Spec.unweightedStatistic t.base = false := by
  have key : ∀ (l : List (Tag StdF)) (t : Tag StdF), t ∈ stdLib.asList true l → Spec.unweightedStatistic t.base = false := by
    intro l t ht
    unfold Lib.asList at ht
    obtain ⟨d, -, rfl⟩ := List.mem_map.1 ht
    show Spec.unweightedStatistic (StdF.weighted d.base) = false
    cases d.base <;> rfl
  have hneeds : ∀ t d : Tag StdF, Spec.Needs stdLib true t d → Spec.unweightedStatistic d.base = false := by
    intro t d hd
    induction hd with
    | direct h1 => exact key _ _ h1
    | step _ _ ih => exact ih
  intro t ht
  obtain ⟨r, ⟨a, b, e, -⟩, hr⟩ := C42_nothing_else stdLib_ok true hord req ht
  rcases hr with rfl | hr
  · exact key req _ (by rw [e]; simp)
  · exact hneeds r t hr

/-- C42–C46: a weighted set with features sharing dependencies. -/
example : stdLib.accumulators true id [tg lazyVariance, tg (covariance 1), tg variance, tg (moment 2)]
    = [tg count, tg sumOfWeights, tg (weightedMoment 2), tg weightedSum, tg weightedMean, tg lazyWeightedVariance,
       tg (weightedSumOfVariates 1), tg (weightedMeanOfVariates 1), tg (weightedCovariance 1)] := by
  decide +kernel

/-- C43: `lazy_variance` is the first of its kind, `variance` is not. -/
example : Spec.FirstOfKind stdLib [tg mean, tg lazyVariance, tg variance] (tg lazyVariance) :=
  ⟨[tg mean], [tg variance], rfl, by decide +kernel⟩

/-- C44: this set meets the hypothesis. -/
example : ∀ t ∈ stdLib.asList false [tg kurtosis, tg variance, tg (covariance 3), tg (tailQuantile .left),
    tg (coherentTailMean .left), tg rollingVariance, tg immediateMean, tg errorOfMean],
    nice false .tail t.base = true := by
  decide +kernel

/-- C44: and so does this one, with weights. -/
example : ∀ t ∈ stdLib.asList true [tg kurtosis, tg variance, tg (covariance 3), tg (potQuantile .left),
    tg (potTailMean .left), tg (relativeTailVariateMeans .right 2), tg median],
    nice true .pot t.base = true := by
  decide +kernel

/-- C45: the rolling variance alone and together with other features, in another order. -/
example (xs : List ℚ) : ∃ s s',
    stdLib.runOps (rollImpl 3) (stdLib.accumulators false id [tg rollingVariance])
      (stdLib.construct (rollImpl 3) (stdLib.accumulators false id [tg rollingVariance]) [tg rollingVariance])
      (xs.map SetOp.push) = .val s ∧
    stdLib.runOps (rollImpl 3) (stdLib.accumulators false List.reverse [tg rollingSum, tg rollingVariance, tg mean])
      (stdLib.construct (rollImpl 3)
        (stdLib.accumulators false List.reverse [tg rollingSum, tg rollingVariance, tg mean])
        [tg rollingSum, tg rollingVariance, tg mean]) (xs.map SetOp.push) = .val s' ∧
    s.env rollingVariance = s'.env rollingVariance := by
  have hs : SameBelow stdLib (stdLib.accumulators false id [tg rollingVariance])
      (stdLib.accumulators false List.reverse [tg rollingSum, tg rollingVariance, tg mean])
      (tg rollingVariance) (tg rollingVariance) := by
    refine ⟨by decide +kernel, by decide +kernel, rfl, fun t ht => ?_⟩
    have h1 := uses_mem ht
    have h2 : ∀ t ∈ stdLib.accumulators false id [tg rollingVariance],
        t ∈ stdLib.accumulators false List.reverse [tg rollingSum, tg rollingVariance, tg mean] := by
      decide +kernel
    exact ⟨t, h2 t h1, rfl⟩
  obtain ⟨s, s', h1, h2, h3, -⟩ := C45_independent_partial stdLib_ok (rollImpl_local (K := ℚ) 3) false false
    (fun l => List.Perm.refl l) List.reverse_perm [tg rollingVariance]
    [tg rollingSum, tg rollingVariance, tg mean]
    (C44_std false _ .tail (fun l => List.Perm.refl l) (by decide +kernel)).1
    (C44_std false _ .tail List.reverse_perm (by decide +kernel)).1 hs
    ⟨_, by simp, rfl⟩ ⟨tg rollingVariance, by simp, rfl⟩
    (obs := fun _ _ => ()) (fun _ _ _ _ _ => rfl) xs
  exact ⟨s, s', h1, h2, h3⟩

/-- C48: dropping `mean` while `variance` stays: `count` stays, `sum` goes. -/
example : (refsAfter false [dr (moment 2), dr mean] [dr mean]).bind
    (fun c => .val (c count, c sum, c mean, c (moment 2))) = .val (1, 0, 0, 1) := by
  decide +kernel

/-- C48: the hypotheses hold for that drop. -/
example : ∀ f ∈ [dr mean], LegalDrop stdLib (stdLib.accumulators false id [dr (moment 2), dr mean])
      [dr (moment 2), dr mean] f (dr mean) ∧ CoversDefault stdLib (dr mean) ∧ CoveredByDefault stdLib (dr mean) ∧
      ∀ a, Spec.Uses stdLib (stdLib.accumulators false id [dr (moment 2), dr mean]) (dr mean) a → a.drop = true := by
  have hall : ∀ a ∈ stdLib.accumulators false id [dr (moment 2), dr mean], a.drop = true := by decide +kernel
  simp only [List.mem_singleton, forall_eq]
  refine ⟨⟨by decide +kernel, rfl, ⟨dr mean, by decide +kernel, rfl⟩, rfl⟩, ?_, ?_, fun a ha => hall a (uses_mem ha)⟩
  · exact fun d hd => ⟨d, hd, rfl⟩
  · exact fun d hd => ⟨d, hd, rfl⟩

/-- C47: a history in which an accumulator is frozen. -/
example : (stdLib.runOps (rollImpl (K := ℚ) 2) (stdLib.accumulators false id [dr rollingSum, dr StdF.rollingCount])
    (stdLib.construct (rollImpl 2) (stdLib.accumulators false id [dr rollingSum, dr StdF.rollingCount])
      [dr rollingSum, dr StdF.rollingCount])
    [.push 1, .drop (dr rollingSum), .push 5]).bind
    (fun s => .val (s.refs rollingSum, s.refs rollingWindowPlus1, RollCell.numOf s.env rollingSum))
      = .val (0, 1, .val 1) := by
  decide +kernel

end Acc
