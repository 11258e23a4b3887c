import Verif.Props.PotMirror
import Verif.Props.Weighted
import Verif.Props.Density

/-!
# Order of arrival (C10), continued

Weighted statistics, all choices of the mean, and fits.
-/

set_option linter.unusedSectionVars false

namespace Acc

section weighted

variable {K : Type} [Field K] [CharZero K] [DecidableEq K]

theorem wtotal_perm {α : Type} {f : α → K} {ps qs : List α} (hp : ps.Perm qs) : (ps.map f).sum = (qs.map f).sum :=
  (hp.map f).sum_eq

theorem wmean_perm {ps qs : List (K × K)} (hp : ps.Perm qs) : Spec.wmean ps = Spec.wmean qs := by
  simp only [Spec.wmean, Spec.wtotal, (hp.map _).sum_eq]

theorem wcentralMoment_perm (k : ℕ) {ps qs : List (K × K)} (hp : ps.Perm qs) :
    Spec.wcentralMoment k ps = Spec.wcentralMoment k qs := by
  simp only [Spec.wcentralMoment, Spec.wtotal, wmean_perm hp, (hp.map _).sum_eq]

/-- **C10** Any reordering of a weighted stream yields the same weighted sum, Kahan sum, lazy mean and moments, whatever the
weights are. -/
theorem C10_weighted_lazy (ps qs : List (K × K)) (hp : ps.Perm qs) (N : ℕ) (x0 : K) :
    weightedSumRun x0 ps = weightedSumRun x0 qs ∧
    (weightedKahanRun x0 ps).sum = (weightedKahanRun x0 qs).sum ∧
    (lazyWMean x0).read ((lazyWMean x0).run ps) = (lazyWMean x0).read ((lazyWMean x0).run qs) ∧
    weightedMomentRun N x0 ps = weightedMomentRun N x0 qs := by
  refine ⟨?_, ?_, ?_, ?_⟩
  · rw [weightedSumRun_eq, weightedSumRun_eq, (hp.map _).sum_eq]
  · rw [weightedKahanRun_eq, weightedKahanRun_eq, (hp.map _).sum_eq]
  · rw [lazyWMean_run, lazyWMean_run, (hp.map _).sum_eq]
    simp only [Spec.wtotal, (hp.map _).sum_eq]
  · rw [weightedMomentRun_eq, weightedMomentRun_eq, (hp.map _).sum_eq]
    simp only [Spec.wtotal, (hp.map _).sum_eq]

/-- **C10** The incremental ones (mean, variances, kurtosis) as long as no partial sum of weights vanishes in either order. -/
theorem C10_weighted (P Q : MeanProvider (K × K) K) (hP : P.WCorrect) (hQ : Q.WCorrect) (ps qs : List (K × K))
    (hp : ps.Perm qs) (hne : ps ≠ []) (h : Spec.NonzeroPrefixes Prod.snd ps) (h' : Spec.NonzeroPrefixes Prod.snd qs) :
    P.read (P.run ps) = Q.read (Q.run qs) ∧
    weightedVarianceRun P 0 ps = weightedVarianceRun Q 0 qs ∧
    lazyWeightedVarianceRun P ps = lazyWeightedVarianceRun Q qs ∧
    weightedKurtosisRun P ps = weightedKurtosisRun Q qs := by
  have hne' : qs ≠ [] := fun e => hne (by simpa [e] using hp)
  have hv : Spec.wvariance ps = Spec.wvariance qs := wcentralMoment_perm 2 hp
  refine ⟨?_, ?_, ?_, ?_⟩
  · rw [hP ps hne h, hQ qs hne' h', wmean_perm hp]
  · rw [C33_immediate P hP ps hne h, C33_immediate Q hQ qs hne' h', hv]
  · rw [C33_lazy P hP ps hne h, C33_lazy Q hQ qs hne' h', hv]
  · by_cases h0 : Spec.wvariance ps = 0
    · rw [C34_kurtosis_degenerate P hP ps hne h h0, C34_kurtosis_degenerate Q hQ qs hne' h' (by rw [← hv, h0])]
    · rw [C34_kurtosis P hP ps hne h h0, C34_kurtosis Q hQ qs hne' h' (by rwa [← hv]), wcentralMoment_perm 2 hp,
        wcentralMoment_perm 4 hp]

/-- **C10** Weighted covariance. -/
theorem C10_weighted_covariance (P P' Q Q' : MeanProvider (K × K) K) (hP : P.WCorrect) (hP' : P'.WCorrect)
    (hQ : Q.WCorrect) (hQ' : Q'.WCorrect) (ps qs : List ((K × K) × K)) (hp : ps.Perm qs) (hne : ps ≠ [])
    (h : Spec.NonzeroPrefixes Prod.snd ps) (h' : Spec.NonzeroPrefixes Prod.snd qs) :
    weightedCovarianceRun P P' ps = weightedCovarianceRun Q Q' qs := by
  have hne' : qs ≠ [] := fun e => hne (by simpa [e] using hp)
  rw [C34_covariance P P' hP hP' ps hne h, C34_covariance Q Q' hQ hQ' qs hne' h']
  congr 1
  unfold Spec.wcovariance
  rw [wmean_perm (hp.map fun q => (q.1.1, q.2)), wmean_perm (hp.map fun q => (q.1.2, q.2)), (hp.map _).sum_eq]
  simp only [Spec.wtotal, ((hp.map fun q => (q.1.1, q.2)).map Prod.snd).sum_eq]

/-- **C10** Why the hypothesis on partial sums is there: the same three samples in another order. -/
theorem C10_weighted_zero_prefix :
    (immWMean (0 : ℚ)).read ((immWMean 0).run [(5, 1), (3, -1), (4, 2)]) = .nonfinite ∧
    (immWMean (0 : ℚ)).read ((immWMean 0).run [(5, 1), (4, 2), (3, -1)]) = .val 5 := by
  constructor
  · simp [MeanProvider.run, immWMean, immWMeanStep, sumStep]
  · rw [C32_immediate 0 _ (by simp) (by
      intro n h0 h1
      have : n = 1 ∨ n = 2 ∨ n = 3 := by simp at h1; omega
      rcases this with rfl | rfl | rfl <;> norm_num)]
    norm_num [Spec.wmean, Spec.wtotal]

end weighted

section unweighted

variable {K : Type} [Field K] [CharZero K] [DecidableEq K]

/-- **C10** Covariance, whatever variants of the means are used. -/
theorem C10_covariance_any (P P' Q Q' : MeanProvider K K) (hP : P.Correct) (hP' : P'.Correct) (hQ : Q.Correct)
    (hQ' : Q'.Correct) (ps qs : List (K × K)) (hp : ps.Perm qs) (h : ps ≠ []) :
    covarianceRun P P' 0 0 ps = covarianceRun Q Q' 0 0 qs := by
  have h' : qs ≠ [] := fun e => h (by simpa [e] using hp)
  rw [C08_covariance P P' hP hP' ps h, C08_covariance Q Q' hQ hQ' qs h']
  simp only [Spec.covariance, mean_perm (hp.map Prod.fst), mean_perm (hp.map Prod.snd), hp.length_eq, perm_sum _ hp]

end unweighted

/-- **C10** Skewness, whatever variant of the mean is used; weighted skewness for positive weights. -/
theorem C10_skewness_any (P Q : MeanProvider ℝ ℝ) (hP : P.Correct) (hQ : Q.Correct) (xs ys : List ℝ) (hp : xs.Perm ys)
    (h : xs ≠ []) (P' Q' : MeanProvider (ℝ × ℝ) ℝ) (hP' : P'.WCorrect) (hQ' : Q'.WCorrect) (ps qs : List (ℝ × ℝ))
    (hp' : ps.Perm qs) (hne : ps ≠ []) (hw : ∀ p ∈ ps, 0 < p.2) :
    skewnessRun P xs = skewnessRun Q ys ∧ weightedSkewnessRun P' ps = weightedSkewnessRun Q' qs := by
  have h' : ys ≠ [] := fun e => h (by simpa [e] using hp)
  have hne' : qs ≠ [] := fun e => hne (by simpa [e] using hp')
  have hw' : ∀ p ∈ qs, 0 < p.2 := fun p hq => hw p (hp'.mem_iff.2 hq)
  constructor
  · have hv : Spec.variance xs = Spec.variance ys := centralMoment_perm 2 hp
    by_cases h0 : Spec.variance xs = 0
    · rw [C07_skewness_degenerate P hP xs h h0, C07_skewness_degenerate Q hQ ys h' (by rw [← hv, h0])]
    · rw [C07_skewness P hP xs h h0, C07_skewness Q hQ ys h' (by rwa [← hv]), centralMoment_perm 2 hp,
        centralMoment_perm 3 hp]
  · have hv : Spec.wvariance ps = Spec.wvariance qs := wcentralMoment_perm 2 hp'
    by_cases h0 : Spec.wvariance ps = 0
    · rw [C34_skewness_degenerate P' hP' ps hne (nonzeroPrefixes_of_pos hw) h0,
        C34_skewness_degenerate Q' hQ' qs hne' (nonzeroPrefixes_of_pos hw') (by rw [← hv, h0])]
    · rw [C34_skewness P' hP' ps hne hw h0, C34_skewness Q' hQ' qs hne' hw' (by rwa [← hv]), wcentralMoment_perm 2 hp',
        wcentralMoment_perm 3 hp']

section ordered

variable {K : Type} [Field K] [LinearOrder K] [IsStrictOrderedRing K]

/-- **C10** Weighted density, for the same pairs in the cache phase. -/
theorem C10_wdensity_perm {lo hi : K} {c B : ℕ} (hc : 0 < c) (hB : 0 < B) (x0 x0' : K) (ps qs : List (K × K))
    (hlim : ∀ p ∈ ps, lo ≤ p.1 ∧ p.1 ≤ hi) (hfull : c ≤ ps.length) (hp : ps.Perm qs)
    (hpc : (ps.take c).Perm (qs.take c)) :
    (wdensitySet lo hi c B x0).answer (onlyPushes ps) () = (wdensitySet lo hi c B x0').answer (onlyPushes qs) () := by
  have hlim' : ∀ p ∈ qs, lo ≤ p.1 ∧ p.1 ≤ hi := fun p h => hlim p (hp.mem_iff.2 h)
  rw [wdensity_answer hc hB x0 _ (by rwa [pushes_onlyPushes]), wdensity_answer hc hB x0' _ (by rwa [pushes_onlyPushes]),
    pushes_onlyPushes, pushes_onlyPushes]
  have hne : ((ps.take c).map Prod.fst) ≠ [] := by
    intro h
    have := congrArg List.length h
    rw [List.length_map, List.length_take, List.length_nil] at this
    omega
  have hmem : ∀ x, x ∈ (qs.take c).map Prod.fst ↔ x ∈ (ps.take c).map Prod.fst := fun x => ((hpc.map Prod.fst).mem_iff).symm
  have e1 : cacheMin hi c qs = cacheMin hi c ps := by
    apply cacheMin_unique (fun p h => (hlim' p h).2)
    simp only [hmem]
    exact C09_min hi _ hne (fun x hx => by
      obtain ⟨p, hp, rfl⟩ := List.mem_map.mp hx
      exact (hlim p (List.mem_of_mem_take hp)).2)
  have e2 : cacheMax lo c qs = cacheMax lo c ps := by
    apply cacheMax_unique (fun p h => (hlim' p h).1)
    simp only [hmem]
    exact C09_max lo _ hne (fun x hx => by
      obtain ⟨p, hp, rfl⟩ := List.mem_map.mp hx
      exact (hlim p (List.mem_of_mem_take hp)).1)
  have e3 : Spec.wtotal qs = Spec.wtotal ps := ((hp.map Prod.snd).sum_eq).symm
  have e4 : ∀ a b i, Spec.binWeight a b B i qs = Spec.binWeight a b B i ps := by
    intro a b i
    unfold Spec.binWeight
    exact (((hp.filter _).map _).sum_eq).symm
  unfold wtable
  simp only [e1, e2, e3, e4, hp.length_eq]

/-- **C10** The generalised Pareto fits, for one extraction at the end. -/
theorem C10_pot_perm (pw : K → K → Res K) (side : Side) (thr : K) (ps qs : List (K × K)) (hp : ps.Perm qs) :
    (potSet pw side thr).answer (onlyPushes (ps.map Prod.fst)) () = (potSet pw side thr).answer (onlyPushes (qs.map Prod.fst)) () ∧
    (wpotSet pw side thr).answer (onlyPushes ps) () = (wpotSet pw side thr).answer (onlyPushes qs) () := by
  constructor
  · obtain ⟨s, e, hc, hnu, hmu, hs2, ht, hd⟩ := pot_state pw side thr (ps.map Prod.fst)
    obtain ⟨s', e', hc', hnu', hmu', hs2', ht', hd'⟩ := pot_state pw side thr (qs.map Prod.fst)
    have hh : (potHits side thr (ps.map Prod.fst)).Perm (potHits side thr (qs.map Prod.fst)) := (hp.map Prod.fst).filter _
    rw [hh.length_eq] at hnu
    rw [hh.sum_eq] at hmu
    rw [(hh.map _).sum_eq] at hs2
    rw [(hp.map Prod.fst).length_eq] at hc
    have hq : (potQuery pw side s).2 = (potQuery pw side s').2 := by
      unfold potQuery
      rw [if_pos hd, if_pos hd', hc, hc', hnu, hnu', hmu, hmu', hs2, hs2', ht, ht']
    unfold RMachine.answer
    rw [e, e', Res.val_bind, Res.val_bind]
    exact congrArg Res.val hq
  · obtain ⟨s, e, hc, hnu, hmu, hs2, ht, hd⟩ := wpot_state pw side thr ps
    obtain ⟨s', e', hc', hnu', hmu', hs2', ht', hd'⟩ := wpot_state pw side thr qs
    have hh : (wpotHits side thr ps).Perm (wpotHits side thr qs) := hp.filter _
    have hw : ∀ {l l' : List (K × K)}, l.Perm l' → Spec.wtotal l = Spec.wtotal l' := fun h => (h.map Prod.snd).sum_eq
    rw [hw hh] at hnu
    rw [(hh.map _).sum_eq] at hmu
    rw [(hh.map _).sum_eq] at hs2
    rw [hw hp] at hc
    have hq : (wpotQuery pw side s).2 = (wpotQuery pw side s').2 := by
      unfold wpotQuery
      rw [if_pos hd, if_pos hd', hc, hc', hnu, hnu', hmu, hmu', hs2, hs2', ht, ht']
    unfold RMachine.answer
    rw [e, e', Res.val_bind, Res.val_bind]
    exact congrArg Res.val hq

/-- **C10** The fit with a threshold probability, for any heap implementations. -/
theorem C10_pot_prob_perm {V : Type} [FloorRing K] (pw : K → K → Res K) (H H' : HeapImpl ℕ) (side : Side) (hasNaN : Bool) {k : ℕ}
    (hk : 1 ≤ k) (v0 v0' : V) (tp : K) (ps qs : List (K × V)) (hp : (ps.map Prod.fst).Perm (qs.map Prod.fst)) :
    (potProbSet pw H side hasNaN k v0 tp).answer (onlyPushes ps) ()
      = (potProbSet pw H' side hasNaN k v0' tp).answer (onlyPushes qs) () := by
  obtain ⟨s, e, hc, htl, hmu, hs2, htp, hd, hf⟩ := potProb_state pw H side hasNaN hk v0 tp ps
  obtain ⟨s', e', hc', htl', hmu', hs2', htp', hd', hf'⟩ := potProb_state pw H' side hasNaN hk v0' tp qs
  have hl : ps.length = qs.length := by simpa using hp.length_eq
  have he : Spec.extremes side k (ps.map Prod.fst) = Spec.extremes side k (qs.map Prod.fst) := by
    simp only [Spec.extremes, byExtremity_congr hp]
  rw [he] at htl
  rw [hl] at hc
  unfold RMachine.answer
  rw [e, e', Res.val_bind, Res.val_bind]
  show (potProbQuery pw H side hasNaN s >>= _) = (potProbQuery pw H' side hasNaN s' >>= _)
  unfold potProbQuery
  rw [if_pos hd, if_pos hd', hc, hc', htl, htl', hmu, hmu', hs2, hs2', htp, htp']
  generalize Spec.extremes side k (qs.map Prod.fst) = E
  cases tailN side qs.length tp with
  | val n =>
    simp only [Res.val_bind]
    split
    · cases hasNaN <;> rfl
    · split
      · rfl
      · cases E[n - 1]? with
        | none => rfl
        | some y => rfl
  | _ => rfl

/-- **C10 fails for weighted tail means with equal samples**, whatever the heap implementation does: the same three
pairs in two orders. -/
theorem C10_wtail_mean_ties (H : HeapImpl ℕ) :
    ([(5, 2), (3, 1), (3, 10)] : List (ℚ × ℚ)).Perm [(5, 2), (3, 10), (3, 1)] ∧
    wtailMean H .right true id 3 0 0 (onlyPushes [(5, 2), (3, 1), (3, 10)]) (10 / 13 : ℚ)
      ≠ wtailMean H .right true id 3 0 0 (onlyPushes [(5, 2), (3, 10), (3, 1)]) (10 / 13) := by
  refine ⟨by decide, ?_⟩
  let g : ℚ → ℚ := fun w => if w = 1 then 10 else if w = 10 then 1 else w
  have hm : Spec.mapPairs (id : ℚ → ℚ) g (onlyPushes (Q := Unit) [(5, 2), (3, 1), (3, 10)])
      = onlyPushes [(5, 2), (3, 10), (3, 1)] := by
    simp [Spec.mapPairs, onlyPushes, g]
  obtain ⟨s, slots, hr, hi⟩ := tailRun_inv H .right (show 1 ≤ 3 by norm_num) (0 : ℚ) (0 : ℚ)
    (onlyPushes [(5, 2), (3, 1), (3, 10)])
  obtain ⟨out, h1, h2, h3, h4, D, h5, h6⟩ := hi.result H
  have hr' := tailRun_map (side := .right) (side' := .right) (f := (id : ℚ → ℚ)) (fun _ _ => rfl) g H 3 0 0
    (onlyPushes (Q := Unit) [(5, 2), (3, 1), (3, 10)])
  rw [hm, hr, Res.map_val, id_eq, show g 0 = 0 from rfl] at hr'
  have g1 := tailResult_map (side := .right) (side' := .right) (f := (id : ℚ → ℚ)) (fun _ _ => rfl) g H s
  have g2 := tailVariateResult_map (side := .right) (side' := .right) (f := (id : ℚ → ℚ)) (fun _ _ => rfl) g H s
  rw [h1, Res.map_val, List.map_id] at g1
  rw [h2, Res.map_val] at g2
  rw [pushes_onlyPushes] at h3 h5
  have hD : D = [] := by
    have := h5.length_eq
    simp at this h3
    exact List.length_eq_zero_iff.1 (by omega)
  rw [hD, List.append_nil] at h5
  have hout : out = [(5, 2), (3, 1), (3, 10)] ∨ out = [(5, 2), (3, 10), (3, 1)] := by
    have hmem : out ∈ ([(5, 2), (3, 1), (3, 10)] : List (ℚ × ℚ)).permutations' := List.mem_permutations'.2 h5
    have hall : ∀ o ∈ ([(5, 2), (3, 1), (3, 10)] : List (ℚ × ℚ)).permutations',
        o.Pairwise (fun a b => b.1 ≤ a.1) → o = [(5, 2), (3, 1), (3, 10)] ∨ o = [(5, 2), (3, 10), (3, 1)] := by
      decide +kernel
    exact hall out hmem h4
  unfold wtailMean
  rw [hr, hr', Res.val_bind, Res.val_bind, h1, h2, g1, g2]
  simp only [Res.val_bind, pushes_onlyPushes]
  rcases hout with rfl | rfl <;> decide +kernel

end ordered

/-! ## Concrete cases -/

example : weightedVarianceRun (immWMean (0 : ℚ)) 0 [(1, 1), (2, 3), (6, 2)]
    = weightedVarianceRun (lazyWMean 0) 0 [(6, 2), (1, 1), (2, 3)] :=
  (C10_weighted (immWMean 0) (lazyWMean 0) (immWMean_correct 0) lazyWMean_correct _ _ (by decide) (by simp)
    (nonzeroPrefixes_of_pos (by decide +kernel)) (nonzeroPrefixes_of_pos (by decide +kernel))).2.1

example : (wdensitySet (-100 : ℚ) 100 2 2 0).answer (onlyPushes [(0, 1), (4, 2), (1, 1), (3, 5)]) ()
    = (wdensitySet (-100 : ℚ) 100 2 2 7).answer (onlyPushes [(4, 2), (0, 1), (3, 5), (1, 1)]) () :=
  C10_wdensity_perm (by norm_num) (by norm_num) _ _ _ _ (by decide +kernel) (by simp) (by decide) (by decide)

end Acc
