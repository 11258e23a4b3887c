import Verif.Proofs.Safe
import Verif.Props.FullSet
import Verif.Props.Median

/-!
# C70: no set goes wrong

A user puts a set together from any features that can be combined, feeds it a stream and extracts results.  The documented
preconditions are few: sizes are not 0, probabilities lie inside (0, 1).  Under these, and with the exceptions listed in
`Spec.Delicate` (which are defects, see C25, C29, C38), every extraction returns a value, a NaN or infinity, or throws an
exception; none reads outside an array, converts a negative number to an unsigned type, or loops for ever.
-/

set_option linter.unusedSectionVars false

namespace Acc

open StdF

section
variable {K : Type} [Field K] [LinearOrder K] [IsStrictOrderedRing K] [FloorRing K]
variable {cfg : Cfg K} (hirr : IrrOk cfg.irr) (hcfg : Spec.SensibleCfg cfg) (w : Bool) {q : QFamily} {sd : Side} {v0 v1 : ℕ}

section alone
variable {as : List (FArgs K)} (hs : Spec.SensibleStream cfg w as) {p : K} (h0 : 0 < p) (h1 : p < 1)
include hcfg hs h0 h1

theorem alone_safe {f : StdF} (hf : fine w q sd v0 v1 f = true) (hq : f ≠ quantile) (he : elementary f = false)
    (hd : ¬ Spec.Delicate cfg as f) : Spec.Safe (Spec.alone cfg as p f) := by
  have hn := fine_nice hf
  have hne : Spec.samples as ≠ [] := by simpa [Spec.samples] using hs.nonempty
  have hlim : ∀ x ∈ pushes (onlyPushes (Q := Unit) (Spec.samples as)), cfg.lo ≤ x ∧ x ≤ cfg.hi := by
    rw [pushes_onlyPushes]
    intro x hx
    obtain ⟨a, ha, rfl⟩ := List.mem_map.1 hx
    exact hs.limits a ha
  have hwlim : ∀ x ∈ pushes (onlyPushes (Q := Unit) (Spec.weightedSamples as)), cfg.lo ≤ x.1 ∧ x.1 ≤ cfg.hi := by
    rw [pushes_onlyPushes]
    intro x hx
    obtain ⟨a, ha, rfl⟩ := List.mem_map.1 hx
    exact hs.limits a ha
  have hbne : pushes (onlyPushes (Q := Unit) (Spec.bare as)) ≠ [] := by
    rw [pushes_onlyPushes]; simpa [Spec.bare] using hs.nonempty
  have hvne : ∀ v, pushes (onlyPushes (Q := Unit) (Spec.withVariate v as)) ≠ [] := by
    intro v; rw [pushes_onlyPushes]; simpa [Spec.withVariate] using hs.nonempty
  have hwne : pushes (onlyPushes (Q := Unit) (Spec.weightedSamples as)) ≠ [] := by
    rw [pushes_onlyPushes]; simpa [Spec.weightedSamples] using hs.nonempty
  have hbwne : ∀ v, pushes (onlyPushes (Q := Unit) (Spec.withBoth v as)) ≠ [] := by
    intro v; rw [pushes_onlyPushes]; simpa [Spec.withBoth] using hs.nonempty
  obtain ⟨a0, ha0⟩ := List.exists_mem_of_ne_nil _ hs.nonempty
  have hdim : ∀ v, ∀ r ∈ pushes (onlyPushes (Q := Unit) (Spec.withVariate v as)), r.2.length = (a0.vec v).length := by
    intro v
    rw [pushes_onlyPushes]
    intro x hx
    obtain ⟨a, ha, rfl⟩ := List.mem_map.1 hx
    exact hs.dims v a ha a0 ha0
  have hbdim : ∀ v, ∀ r ∈ pushes (onlyPushes (Q := Unit) (Spec.withBoth v as)), r.2.1.length = (a0.vec v).length := by
    intro v
    rw [pushes_onlyPushes]
    intro x hx
    obtain ⟨a, ha, rfl⟩ := List.mem_map.1 hx
    exact hs.dims v a ha a0 ha0
  have hwpos : w = true → ∀ r ∈ Spec.weightedSamples as, 0 < r.2 := by
    intro hw x hx
    obtain ⟨a, ha, rfl⟩ := List.mem_map.1 hx
    exact hs.weights hw a ha
  have hbpos : w = true → ∀ v, ∀ r ∈ Spec.withBoth v as, 0 < r.2.2 := by
    intro hw v x hx
    obtain ⟨a, ha, rfl⟩ := List.mem_map.1 hx
    exact hs.weights hw a ha
  have hprobs := List.length_pos_of_ne_nil hcfg.probs
  have hmany : ∀ {k : Interp}, cfg.probs.length ≠ 2 → k = .quadratic → cfg.probs.length ≠ 2 := fun h _ => h
  have hepsq : ∀ k : Interp, (k = .quadratic → cfg.probs.length ≠ 2) →
      (Spec.flat ((epsqQuantileSet k cfg.hasNaN cfg.probs).answer (onlyPushes (Spec.samples as)) p)).Defined := by
    intro k hk
    obtain ⟨vs, -, hl, e⟩ := C25_set k cfg.hasNaN hcfg.sorted hprobs hk (onlyPushes (Spec.samples as)) p
    rw [e]
    exact epsqQuantile_defined k cfg.hasNaN hcfg.sorted hprobs hl hk p
  have hwepsq : ∀ k : Interp, (k = .quadratic → cfg.probs.length ≠ 2) →
      (Spec.flat ((wepsqQuantileSet k cfg.hasNaN cfg.probs).answer (onlyPushes (Spec.weightedSamples as)) p)).Defined := by
    intro k hk
    obtain ⟨vs, -, hl, e⟩ := C41_quantile k cfg.hasNaN hcfg.sorted hprobs hk (onlyPushes (Spec.weightedSamples as)) p
    rw [e]
    exact epsqQuantile_defined k cfg.hasNaN hcfg.sorted hprobs hl hk p
  have hpot := fun s => pot_defined hcfg.pw s cfg.potThr (Spec.samples as)
  have hwpot := fun s => wpot_defined hcfg.pw s cfg.potThr (Spec.weightedSamples as)
  have hprob := fun s => potProb_defined hcfg.pw cfg.heap s cfg.hasNaN hcfg.tailCache () hcfg.potProb.1 hcfg.potProb.2
    (Spec.bare as) (by simpa [Spec.bare] using hs.nonempty)
  have hwprob := fun s (hw : w = true) => wpotProb_defined hcfg.pw cfg.heap s cfg.hasNaN hcfg.tailCache hcfg.potProb.1
    hcfg.potProb.2 (Spec.weightedSamples as) (by simpa [Spec.weightedSamples] using hs.nonempty) (hwpos hw)
  have hweighted : ∀ P : Prop, (w = true → P) → (w = false → False) → P := by
    intro P h1 h2
    cases hw : w with
    | true => exact h1 hw
    | false => exact (h2 hw).elim
  cases f with
  | rollingWindowPlus1 => trivial
  | rollingWindow => trivial
  | rollingCount => trivial
  | rollingSum => show (rollRun _ _ _ _).sum.Defined; rw [C13_sum]; trivial
  | rollingMean => exact defined_of_val ⟨_, C13_mean .immediate cfg.window hcfg.window _ hne⟩
  | immediateRollingMean => exact defined_of_val ⟨_, C13_mean .immediate cfg.window hcfg.window _ hne⟩
  | rollingMoment m => exact defined_of_val ⟨_, C13_moment .immediate m cfg.window hcfg.window _ hne⟩
  | rollingVariance => exact defined_of_val ⟨_, C14_immediate .immediate cfg.window hcfg.window _⟩
  | immediateRollingVariance => exact defined_of_val ⟨_, C14_immediate .immediate cfg.window hcfg.window _⟩
  | lazyRollingVariance => exact defined_of_val ⟨_, C14_lazy .immediate cfg.window hcfg.window _⟩
  | density => exact safe_hist ⟨_, density_answer hcfg.densCache hcfg.numBins 0 _ hlim, wtable_defined _ _ _ _ _⟩
  | weightedDensity => exact safe_hist ⟨_, wdensity_answer hcfg.densCache hcfg.numBins 0 _ hwlim, wtable_defined _ _ _ _ _⟩
  | pSquareQuantile => exact defined_of_val (C56_psq _ _)
  | pSquareQuantileForMedian => exact defined_of_val (C56_psq _ _)
  | median => exact defined_of_val (C56_psq _ _)
  | pSquareCumul => exact safe_hist (psqCumul_defined hcfg.cells _)
  | extendedPSquare =>
    obtain ⟨r, e, -⟩ := C56_epsq cfg.probs (onlyPushes (Spec.samples as))
    exact defined_of_val ⟨r, e⟩
  | extendedPSquareQuantile => exact hepsq .linear (by simp)
  | extendedPSquareQuantileQuadratic => exact hepsq .quadratic fun _ => hd
  | weightedPSquareQuantile =>
    obtain ⟨v, e, -⟩ := C28_wpsq_transparent cfg.prob (onlyPushes (Spec.weightedSamples as))
    exact defined_of_val ⟨v, e⟩
  | weightedPSquareQuantileForMedian =>
    obtain ⟨v, e, -⟩ := C28_wpsq_transparent (1 / 2) (onlyPushes (Spec.weightedSamples as))
    exact defined_of_val ⟨v, e⟩
  | weightedMedian =>
    obtain ⟨v, e, -⟩ := C28_wpsq_transparent (1 / 2) (onlyPushes (Spec.weightedSamples as))
    exact defined_of_val ⟨v, e⟩
  | weightedPSquareCumul => exact safe_hist (wpsqCumul_defined hcfg.cells _)
  | weightedExtendedPSquare =>
    obtain ⟨v, e, -⟩ := C28_wepsq_transparent hcfg.probs (onlyPushes (Spec.weightedSamples as))
    exact defined_of_val ⟨v, e⟩
  | weightedExtendedPSquareQuantile => exact hwepsq .linear (by simp)
  | weightedExtendedPSquareQuantileQuadratic => exact hwepsq .quadratic fun _ => hd
  | withDensityMedian => exact (hd trivial).elim
  | withDensityWeightedMedian => exact (hd trivial).elim
  | withCumulMedian => exact (hd trivial).elim
  | withCumulWeightedMedian => exact (hd trivial).elim
  | tail s => exact defined_of_val ⟨_, C15_tail cfg.heap s hcfg.tailCache _ _ _⟩
  | tailVariate v s =>
    obtain ⟨s', out, h2, -, h3, -⟩ := extract_both cfg.heap s hcfg.tailCache (0 : K) ([] : List K)
      (onlyPushes (Spec.withVariate v as))
    exact defined_of_val ⟨out.map Prod.snd, by simp only [extractTailVariate, h2, Res.val_bind, h3]⟩
  | tailWeights s =>
    obtain ⟨s', out, h2, -, h3, -⟩ := extract_both cfg.heap s hcfg.tailCache (0 : K) (0 : K)
      (onlyPushes (Spec.weightedSamples as))
    exact defined_of_val ⟨out.map Prod.snd, by simp only [extractTailVariate, h2, Res.val_bind, h3]⟩
  | tailQuantile s => exact tailQuantile_defined cfg.heap s cfg.hasNaN hcfg.tailCache 0 () _ hbne h0 h1
  | nonCoherentTailMean s => exact nonCoherentTailMean_defined cfg.heap s cfg.hasNaN hcfg.tailCache 0 () _ hbne h0 h1
  | coherentTailMean s => exact coherentTailMean_defined cfg.heap s cfg.hasNaN hcfg.tailCache 0 () _ hbne h0 h1
  | absoluteTailVariateMeans s v =>
    exact tailVariateMeans_defined cfg.heap s false cfg.hasNaN hcfg.tailCache 0 [] _ (hvne v) h0 h1 (hdim v)
  | relativeTailVariateMeans s v =>
    exact tailVariateMeans_defined cfg.heap s true cfg.hasNaN hcfg.tailCache 0 [] _ (hvne v) h0 h1 (hdim v)
  | weightedTailQuantile s =>
    refine hweighted _ (fun hw => ?_) (fun hw => by subst hw; cases hn)
    exact wtailQuantile_defined cfg.heap s cfg.hasNaN id hcfg.tailCache 0 0 _ hwne
      (by rw [pushes_onlyPushes]; exact hwpos hw) h0 h1
  | nonCoherentWeightedTailMean s => exact wtailMean_defined cfg.heap s cfg.hasNaN id hcfg.tailCache 0 0 _ p
  | absoluteWeightedTailVariateMeans s v =>
    refine hweighted _ (fun hw => ?_) (fun hw => by subst hw; cases hn)
    refine wtailVariateMeans_defined cfg.heap s false cfg.hasNaN hcfg.tailCache 0 ([], 0) _ (hbwne v)
      (by rw [pushes_onlyPushes]; exact hbpos hw v) h0 h1 (hbdim v) fun hN => ?_
    rw [pushes_onlyPushes, Spec.withBoth, List.length_map]
    exact not_lt.1 fun h => hd ⟨hN, h⟩
  | relativeWeightedTailVariateMeans s v =>
    refine hweighted _ (fun hw => ?_) (fun hw => by subst hw; cases hn)
    refine wtailVariateMeans_defined cfg.heap s true cfg.hasNaN hcfg.tailCache 0 ([], 0) _ (hbwne v)
      (by rw [pushes_onlyPushes]; exact hbpos hw v) h0 h1 (hbdim v) fun hN => ?_
    rw [pushes_onlyPushes, Spec.withBoth, List.length_map]
    exact not_lt.1 fun h => hd ⟨hN, h⟩
  | peaksOverThreshold s =>
    obtain ⟨f, e, hf⟩ := hpot s
    exact safe_fit (defined_of_val ⟨f, e⟩) fun f' e' => by rw [e] at e'; injection e' with e'; exact e' ▸ hf
  | weightedPeaksOverThreshold s =>
    obtain ⟨f, e, hf⟩ := hwpot s
    exact safe_fit (defined_of_val ⟨f, e⟩) fun f' e' => by rw [e] at e'; injection e' with e'; exact e' ▸ hf
  | peaksOverThresholdProb s =>
    rcases hprob s with e | ⟨f, e, hf⟩
    · exact safe_fit (by rw [e]; trivial) fun f' e' => by rw [e] at e'; cases e'
    · exact safe_fit (defined_of_val ⟨f, e⟩) fun f' e' => by rw [e] at e'; injection e' with e'; exact e' ▸ hf
  | weightedPeaksOverThresholdProb s =>
    refine hweighted _ (fun hw => ?_) (fun hw => by subst hw; cases hn)
    rcases hwprob s hw with e | ⟨f, e, hf⟩
    · exact safe_fit (by rw [e]; trivial) fun f' e' => by rw [e] at e'; cases e'
    · exact safe_fit (defined_of_val ⟨f, e⟩) fun f' e' => by rw [e] at e'; injection e' with e'; exact e' ▸ hf
  | potQuantile s =>
    obtain ⟨f, e, hf⟩ := hpot s
    show (Spec.flat _).Defined
    rw [potQuantile_answer cfg.pw s _ (pot_steady cfg.pw s cfg.potThr), e]
    exact potQuantileValue_defined hcfg.pw s hf p
  | weightedPotQuantile s =>
    obtain ⟨f, e, hf⟩ := hwpot s
    show (Spec.flat _).Defined
    rw [potQuantile_answer cfg.pw s _ (wpot_steady cfg.pw s cfg.potThr), e]
    exact potQuantileValue_defined hcfg.pw s hf p
  | potQuantileProb s =>
    show (Spec.flat _).Defined
    rw [potQuantile_answer cfg.pw s _ (potProb_steady cfg.pw cfg.heap s cfg.hasNaN cfg.tailCache () cfg.potProb)]
    rcases hprob s with e | ⟨f, e, hf⟩
    · rw [e]; trivial
    · rw [e]; exact potQuantileValue_defined hcfg.pw s hf p
  | weightedPotQuantileProb s =>
    refine hweighted _ (fun hw => ?_) (fun hw => by subst hw; cases hn)
    show (Spec.flat _).Defined
    rw [potQuantile_answer cfg.pw s _ (wpotProb_steady cfg.pw cfg.heap s cfg.hasNaN cfg.tailCache cfg.potProb)]
    rcases hwprob s hw with e | ⟨f, e, hf⟩
    · rw [e]; trivial
    · rw [e]; exact potQuantileValue_defined hcfg.pw s hf p
  | potTailMean s =>
    obtain ⟨f, e, hf⟩ := hpot s
    show (Spec.flat _).Defined
    rw [potTailMean_answer cfg.pw s _ (pot_steady cfg.pw s cfg.potThr), e]
    exact potTailMeanValue_defined hcfg.pw s hf.2.1 hf.2.2 (potQuantileValue_defined hcfg.pw s hf p) p
  | weightedPotTailMean s =>
    obtain ⟨f, e, hf⟩ := hwpot s
    show (Spec.flat _).Defined
    rw [potTailMean_answer cfg.pw s _ (wpot_steady cfg.pw s cfg.potThr), e]
    exact potTailMeanValue_defined hcfg.pw s hf.2.1 hf.2.2 (potQuantileValue_defined hcfg.pw s hf p) p
  | potTailMeanProb s =>
    show (Spec.flat _).Defined
    rw [potTailMean_answer cfg.pw s _ (potProb_steady cfg.pw cfg.heap s cfg.hasNaN cfg.tailCache () cfg.potProb)]
    rcases hprob s with e | ⟨f, e, hf⟩
    · rw [e]; trivial
    · rw [e]; exact potTailMeanValue_defined hcfg.pw s hf.2.1 hf.2.2 (potQuantileValue_defined hcfg.pw s hf p) p
  | weightedPotTailMeanProb s =>
    refine hweighted _ (fun hw => ?_) (fun hw => by subst hw; cases hn)
    show (Spec.flat _).Defined
    rw [potTailMean_answer cfg.pw s _ (wpotProb_steady cfg.pw cfg.heap s cfg.hasNaN cfg.tailCache cfg.potProb)]
    rcases hwprob s hw with e | ⟨f, e, hf⟩
    · rw [e]; trivial
    · rw [e]; exact potTailMeanValue_defined hcfg.pw s hf.2.1 hf.2.2 (potQuantileValue_defined hcfg.pw s hf p) p
  | _ => first | (cases he; done) | exact (hq rfl).elim | (cases w <;> cases hn)

/-- An elementary statistic. -/
theorem stat_defined {f : StdF} (hf : fine w q sd v0 v1 f = true) (he : elementary f = true) :
    (stat cfg.irr w v0 cfg.lo cfg.hi (as.map FArgs.toArgs) (key f)).Defined := by
  have hb := fine_basic hf he
  have hk : ∀ a b c d : K, (kurtosisResult (.val a) (.val b) (.val c) (.val d)).Defined := by
    intro a b c d
    unfold kurtosisResult
    exact (fdiv_defined _ _).bind' fun _ => trivial
  cases f <;> first
    | (cases he; done)
    | trivial
    | exact hk _ _ _ _
    | exact hcfg.irr _ _ _ (by simp) trivial trivial trivial trivial
    | (cases w <;> first | (cases hb; done) | trivial)

end alone

section run
variable {ord : List (Tag StdF) → List (Tag StdF)} (hord : ∀ l, (ord l).Perm l) (req : List (Tag StdF))
  (hf : ∀ t ∈ stdLib.asList w req, fine w q sd v0 v1 t.base = true)
  (hnq : ∀ t ∈ stdLib.accumulators w ord req, t.base ≠ quantile) {as : List (FArgs K)}
  (hs : Spec.SensibleStream cfg w as) {p : K} (h0 : 0 < p) (h1 : p < 1)
include hirr hcfg hord hf hnq hs h0 h1

/-- C70: what a requested feature uses, and the feature itself, can be extracted safely. -/
theorem C70_uses {u t : Tag StdF} (hu : u ∈ stdLib.accumulators w ord req)
    (hreq : Spec.Mentions stdLib req (stdLib.tkey u))
    (ht : t = u ∨ Spec.Uses stdLib (stdLib.accumulators w ord req) u t)
    (hd : ∀ e, e = t ∨ Spec.Uses stdLib (stdLib.accumulators w ord req) t e →
      stdLib.tkey e = abstractTailVariate ∨ stdLib.tkey e = abstractTailWeights → e.drop = false)
    (hdel : ¬ Spec.Delicate cfg as t.base) :
    Spec.Safe (fullRun cfg w ord req as p (stdLib.tkey t)) := by
  have htS : t ∈ stdLib.accumulators w ord req := Below.mem hu ht
  have hft := fine_accumulators w hord req hf t htS
  rw [fullRun_eq hirr hcfg.tailCache w hord req hf hnq hs.nonempty hs.weights hu hreq ht hd]
  cases he : elementary t.base with
  | true =>
    unfold full
    rw [if_pos he]
    exact stat_defined hcfg w hs h0 h1 hft he
  | false =>
    rw [full_other he]
    exact alone_safe hcfg w hs h0 h1 hft (hnq t htS) he hdel

/-- C70: construct a set with any combination of features (as in C69, none droppable), with sensible arguments; push any
sensible stream; extract any requested feature that is not one of the delicate ones, with a probability inside (0, 1).
The result is a value, NaN or infinity, or an exception: no undefined behaviour, no endless loop. -/
theorem C70_requested (hp : ∀ t ∈ req, t.drop = false) {r : Tag StdF} (hr : r ∈ stdLib.asList w req)
    (hdel : ∀ t ∈ stdLib.accumulators w ord req, stdLib.tkey t = stdLib.tkey r → ¬ Spec.Delicate cfg as t.base) :
    Spec.Safe (fullRun cfg w ord req as p (stdLib.tkey r)) := by
  obtain ⟨e, ⟨he, hk'⟩, -⟩ := (C42_closure stdLib_ok w hord req).1 r hr
  have hm : Spec.Mentions stdLib req (stdLib.tkey e) := by
    rw [hk']
    unfold Lib.asList at hr
    cases w with
    | false => exact ⟨r, hr, rfl⟩
    | true =>
      obtain ⟨r', h2, rfl⟩ := List.mem_map.1 hr
      exact ⟨r', h2, (stdLib_ok.weighted_key _).symm⟩
  rw [← hk']
  exact C70_uses hirr hcfg w hord req hf hnq hs h0 h1 he hm (Or.inl rfl)
    (fun x hx _ => plain_accumulators w hord req hp x (Below.mem he hx)) (hdel e he hk')

end run

end

/-! ## The exceptions

Each of them is a set a user may construct, with arguments the documentation allows. -/

section exceptions
variable {K : Type} [Field K] [LinearOrder K] [IsStrictOrderedRing K] [FloorRing K]
variable {cfg : Cfg K} (hirr : IrrOk cfg.irr) (hcfg : Spec.SensibleCfg cfg) {as : List (FArgs K)} {p : K}
include hirr hcfg

/-- A set with one feature. -/
theorem single_eq {w : Bool} (hs : Spec.SensibleStream cfg w as) {q : QFamily} {sd : Side} {v1 : ℕ} {r r' : Tag StdF}
    (hl : stdLib.asList w [r] = [r']) (hf : fine w q sd 0 v1 r'.base = true) (he : elementary r'.base = false)
    (hd : r.drop = false) (hnq : ∀ t ∈ stdLib.accumulators w id [r], t.base ≠ quantile) :
    fullRun cfg w id [r] as p (stdLib.tkey r') = Spec.alone cfg as p r'.base :=
  C69_estimators_plain (q := q) (sd := sd) (v0 := 0) (v1 := v1) hirr hcfg.tailCache w (fun l => List.Perm.refl l) [r]
    (by rw [hl]; simpa using hf) hnq hs.nonempty hs.weights (by simpa using hd)
    ⟨[], [], by rw [hl]; rfl, by simp⟩ he p

/-- C70 fails for `with_density_median`: fewer samples than the cache of the histogram holds. -/
theorem C70_density_median_ub (hs : Spec.SensibleStream cfg false as) (hn : as.length < cfg.densCache) :
    fullRun cfg false id [tg withDensityMedian] as p median = .num .ub := by
  have := single_eq (p := p) hirr hcfg hs (q := .tail) (sd := .left) (v1 := 0) (r := tg withDensityMedian) rfl rfl rfl rfl
    (by decide +kernel)
  refine Eq.trans this (congrArg Out.num ?_)
  refine C29_density_median_before_full_ub hcfg.densCache hcfg.numBins _ ?_ (by simpa [Spec.samples] using hn)
  intro x hx
  obtain ⟨a, ha, rfl⟩ := List.mem_map.1 hx
  exact hs.limits a ha

/-- C70 fails for `extended_p_square_quantile_quadratic` with two probabilities. -/
theorem C70_quadratic_ub (hs : Spec.SensibleStream cfg false as) {p0 p1 : K} (h2 : cfg.probs = [p0, p1]) (h3 : p0 < p)
    (h4 : p < p1) :
    fullRun cfg false id [tg extendedPSquareQuantileQuadratic] as p quantile = .num .ub := by
  have := single_eq (p := p) hirr hcfg hs (q := .pSquare) (sd := .left) (v1 := 0)
    (r := tg extendedPSquareQuantileQuadratic) rfl rfl rfl rfl (by decide +kernel)
  refine Eq.trans this (congrArg Out.num ?_)
  rw [epsqQuantile_answer, h2]
  obtain ⟨r, e, hl⟩ := C56_epsq [p0, p1] (onlyPushes (Spec.samples as))
  rw [e]
  match r, hl with
  | [a, b], _ => exact C25_quadratic_two_ub cfg.hasNaN h3 h4

/-- C70 fails for the weighted means of covariates: when the weights in the cache do not suffice, the call never returns. -/
theorem C70_variate_means_diverge (hs : Spec.SensibleStream cfg true as) (hN : cfg.hasNaN = true) (sd : Side)
    (hc : ∀ u : List (List K × K), extractTailVariate cfg.heap sd cfg.tailCache 0 ([], 0)
        (onlyPushes (Spec.withBoth 0 as)) = .val u →
      (u.map Prod.snd).sum < (as.map fun a => a.w).sum * tailLevel sd p) :
    fullRun cfg true id [tg (absoluteTailVariateMeans sd 0)] as p abstractAbsoluteTailVariateMeans
      = .list .diverges := by
  have := single_eq (p := p) hirr hcfg hs (q := .tail) (sd := sd) (v1 := 0) (r := tg (absoluteTailVariateMeans sd 0))
    (r' := tg (absoluteWeightedTailVariateMeans sd 0)) rfl (by simp [fine, nice, heavy, sameTail, tg, elementary]) rfl rfl
    (by cases sd <;> decide +kernel)
  refine Eq.trans this (congrArg Out.list ?_)
  obtain ⟨out, D, -, hv, -⟩ := wtailVariate_out cfg.heap sd hcfg.tailCache 0 (([], 0) : List K × K)
    (onlyPushes (Spec.withBoth 0 as))
  have hpos : ∀ r ∈ Spec.withBoth 0 as, 0 ≤ r.2.2 := by
    intro x hx
    obtain ⟨a, ha, rfl⟩ := List.mem_map.1 hx
    exact (hs.weights rfl a ha).le
  have := C38_never_returns (p := p) cfg.heap sd false cfg.hasNaN 0 ([], 0) (onlyPushes (Spec.withBoth 0 as))
    hcfg.tailCache (by rw [pushes_onlyPushes]; exact hpos) hv (by
      rw [← wtailThreshold_eq, wtailThreshold_sum, pushes_onlyPushes]
      have := hc _ hv
      simpa [Spec.withBoth, Function.comp_def] using this)
  rw [this, hN]
  rfl

end exceptions

/-! ## The functions of the library over the reals are sensible -/

theorem realPow_defined (x y : ℝ) : (realPow x y).Defined := by
  unfold realPow
  split
  · trivial
  · split
    · split
      · trivial
      · split <;> trivial
    · split <;> trivial

theorem irrational_defined (bits : ℕ) (k : StdF) (n : ℕ) (rd : StdF → Res ℝ) (hk : k = skewness ∨ k = errorOfMean)
    (h1 : (rd mean).Defined) (h2 : (rd (moment 2)).Defined) (h3 : (rd (moment 3)).Defined) (h4 : (rd variance).Defined) :
    (irrational bits k n rd).Defined := by
  rcases hk with rfl | rfl
  · refine h3.bind' fun a => h2.bind' fun b => h1.bind' fun c => ?_
    split
    · trivial
    · exact fdiv_defined _ _
  · refine h4.bind' fun a => (fdiv_defined _ _).bind' fun b => ?_
    split <;> trivial

/-! ## Concrete sets -/

/-- A configuration over the reals, with the functions of the standard library. -/
noncomputable def realCfg : Cfg ℝ where
  lo := -1000
  hi := 1000
  irr := irrational 64
  pw := realPow
  hasNaN := true
  heap := HeapImpl.simple
  window := 2
  densCache := 3
  numBins := 2
  cells := 3
  prob := 1 / 2
  probs := [1 / 4, 1 / 2]
  tailCache := 2
  potThr := 2
  potProb := 1 / 2

theorem realCfg_sensible : Spec.SensibleCfg realCfg where
  window := by simp [realCfg]
  densCache := by simp [realCfg]
  numBins := by simp [realCfg]
  cells := by simp [realCfg]
  tailCache := by simp [realCfg]
  probs := by simp [realCfg]
  sorted := by simp [realCfg]; norm_num
  potProb := by simp only [realCfg]; norm_num
  pw := realPow_defined
  irr := irrational_defined 64

/-- Three samples with weights and covariates. -/
def realStream : List (FArgs ℝ) :=
  [⟨⟨1, 1, fun _ => 2⟩, fun _ => [5]⟩, ⟨⟨4, 2, fun _ => 4⟩, fun _ => [6]⟩, ⟨⟨3, 1, fun _ => 4⟩, fun _ => [7]⟩]

theorem realStream_sensible (w : Bool) : Spec.SensibleStream realCfg w realStream where
  nonempty := by simp [realStream]
  limits := by simp [realStream, realCfg]; norm_num
  weights := by simp [realStream]
  dims := by simp [realStream]

/-- The features `Spec.Delicate` names. -/
def delicateName : StdF → Bool
  | withDensityMedian | withDensityWeightedMedian | withCumulMedian | withCumulWeightedMedian
  | extendedPSquareQuantileQuadratic | weightedExtendedPSquareQuantileQuadratic
  | absoluteWeightedTailVariateMeans _ _ | relativeWeightedTailVariateMeans _ _ => true
  | _ => false

theorem not_delicate {K : Type} {cfg : Cfg K} {as : List (FArgs K)} {f : StdF} (h : delicateName f = false) :
    ¬ Spec.Delicate cfg as f := by
  cases f <;> first | (cases h; done) | exact id

/-- A request with estimators of all kinds. -/
def manyReq : List (Tag StdF) :=
  [tg (StdF.tailQuantile .right), tg (absoluteTailVariateMeans .right 1), tg extendedPSquare, tg skewness,
    tg (covariance 3), tg (peaksOverThreshold .right), tg pSquareCumul]

/-- C70: estimators of all kinds in one set with weights; five of them are extracted. -/
example : ∀ r ∈ [tg (weightedTailQuantile .right), tg weightedSkewness, tg (weightedPeaksOverThreshold .right),
      tg weightedExtendedPSquare, tg weightedPSquareCumul],
    Spec.Safe (fullRun realCfg true List.reverse manyReq realStream (1 / 2) (stdLib.tkey r)) := by
  intro r hr
  have hm : ∀ r ∈ [tg (weightedTailQuantile .right), tg weightedSkewness, tg (weightedPeaksOverThreshold .right),
      tg weightedExtendedPSquare, tg weightedPSquareCumul], r ∈ stdLib.asList true manyReq := by decide +kernel
  have hn : ∀ r ∈ [tg (weightedTailQuantile .right), tg weightedSkewness, tg (weightedPeaksOverThreshold .right),
      tg weightedExtendedPSquare, tg weightedPSquareCumul], ∀ t ∈ stdLib.accumulators true List.reverse manyReq,
      stdLib.tkey t = stdLib.tkey r → delicateName t.base = false := by decide +kernel
  exact C70_requested (q := .tail) (sd := .right) (v0 := 3) (v1 := 1) (irrational_ok 64) realCfg_sensible true
    List.reverse_perm manyReq (by decide +kernel) (by decide +kernel) (realStream_sensible true) (by norm_num)
    (by norm_num) (by decide +kernel) (hm r hr) fun t ht hk => not_delicate (hn r hr t ht hk)

/-- C70, the exceptions: the hypotheses are met by the same configuration. -/
example : fullRun realCfg false id [tg withDensityMedian] (realStream.take 2) (1 / 2) median = .num .ub :=
  C70_density_median_ub (irrational_ok 64) realCfg_sensible
    ⟨by simp [realStream], by simp [realStream, realCfg]; norm_num, by simp, by simp [realStream]⟩
    (by simp [realStream, realCfg])

example : fullRun realCfg false id [tg extendedPSquareQuantileQuadratic] realStream (1 / 3) quantile = .num .ub :=
  C70_quadratic_ub (irrational_ok 64) realCfg_sensible (realStream_sensible false) (p0 := 1 / 4) (p1 := 1 / 2) rfl
    (by norm_num) (by norm_num)

/-- Room for one sample in the tail. -/
def smallCfg : Cfg ℚ := { exampleCfg with tailCache := 1, pw := fun _ _ => .nonfinite, irr := fun _ _ _ => .nonfinite }

theorem smallCfg_sensible : Spec.SensibleCfg smallCfg where
  window := by decide
  densCache := by decide
  numBins := by decide
  cells := by decide
  tailCache := by decide
  probs := by decide
  sorted := by decide +kernel
  potProb := by decide +kernel
  pw := fun _ _ => trivial
  irr := fun _ _ _ _ _ _ _ _ => trivial

/-- The divergence: a cache of one sample, three samples, half of the weight asked for. -/
example : fullRun smallCfg true id [tg (absoluteTailVariateMeans .right 0)]
    [⟨⟨1, 1, fun _ => 2⟩, fun _ => [5]⟩, ⟨⟨4, 1, fun _ => 4⟩, fun _ => [6]⟩, ⟨⟨3, 1, fun _ => 4⟩, fun _ => [7]⟩]
    (1 / 2) abstractAbsoluteTailVariateMeans = .list .diverges := by
  refine C70_variate_means_diverge ⟨fun _ _ _ _ _ _ _ => rfl, fun _ _ _ _ => rfl⟩ smallCfg_sensible
    ⟨by simp, by decide +kernel, fun _ => by decide +kernel, by simp⟩ rfl .right ?_
  intro u hu
  have e : extractTailVariate HeapImpl.simple .right 1 (0 : ℚ) (([], 0) : List ℚ × ℚ)
      (onlyPushes (Spec.withBoth 0 [⟨⟨1, 1, fun _ => 2⟩, fun _ => [5]⟩, ⟨⟨4, 1, fun _ => 4⟩, fun _ => [6]⟩,
        ⟨⟨3, 1, fun _ => 4⟩, fun _ => [7]⟩])) = .val [([6], 1)] := by decide +kernel
  have hu' := e.symm.trans hu
  injection hu' with hu'
  subst hu'
  decide +kernel

end Acc
