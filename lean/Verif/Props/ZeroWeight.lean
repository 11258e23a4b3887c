import Verif.Props.Weighted
import Verif.Props.WTail
import Verif.Props.Density
import Verif.Props.WPSquare
import Verif.Props.Monotone

/-!
# Samples of weight zero (C75)

Which statistics of a weighted set ignore a sample pushed with weight 0?
-/

set_option linter.unusedSectionVars false

namespace Acc

open Spec

variable {K : Type} [Field K] [LinearOrder K] [IsStrictOrderedRing K]

/-- The stream without the samples of weight zero. -/
def Spec.heavy {X : Type} (ps : List (X × K)) : List (X × K) := ps.filter fun p => p.2 ≠ 0

theorem foldl_heavy {S X : Type} (f : S → X × K → S) (hf : ∀ s x, f s (x, 0) = s) (ps : List (X × K)) (s : S) :
    ps.foldl f s = (heavy ps).foldl f s := by
  induction ps generalizing s with
  | nil => rfl
  | cons p ps ih =>
    by_cases h : p.2 = 0
    · have e : p = (p.1, 0) := Prod.ext rfl h
      have : heavy (p :: ps) = heavy ps := by simp [heavy, h]
      rw [this, List.foldl_cons, e, hf, ih]
    · have : heavy (p :: ps) = p :: heavy ps := by simp [heavy, h]
      rw [this, List.foldl_cons, List.foldl_cons, ih]

/-- **C75** Sums of weights, weighted sums, weighted means, weighted moments and the statistics computed from them on
extraction ignore samples of weight zero, for every stream, even if no other sample remains. -/
theorem C75_lazy (x0 : K) (N : ℕ) (ps : List (K × K)) :
    sumRun Prod.snd x0 ps = sumRun Prod.snd x0 (heavy ps) ∧
    weightedSumRun x0 ps = weightedSumRun x0 (heavy ps) ∧
    (lazyWMean x0).read ((lazyWMean x0).run ps) = (lazyWMean x0).read ((lazyWMean x0).run (heavy ps)) ∧
    weightedMomentRun N x0 ps = weightedMomentRun N x0 (heavy ps) ∧
    lazyWeightedVarianceRun (lazyWMean x0) ps = lazyWeightedVarianceRun (lazyWMean x0) (heavy ps) ∧
    weightedKurtosisRun (lazyWMean x0) ps = weightedKurtosisRun (lazyWMean x0) (heavy ps) := by
  have hm : ∀ (N : ℕ) (x0 : K), weightedMomentRun N x0 ps = weightedMomentRun N x0 (heavy ps) := by
    intro N x0
    unfold weightedMomentRun
    rw [foldl_heavy]
    intro s x
    simp [WMomentSt.push, sumStep]
  have hr : (lazyWMean x0).run ps = (lazyWMean x0).run (heavy ps) := by
    unfold MeanProvider.run
    apply foldl_heavy
    intro s x
    show (⟨sumStep s.sumW 0, weightedSumStep s.wsum (x, 0)⟩ : WSums K) = s
    cases s
    simp [sumStep, weightedSumStep]
  refine ⟨?_, ?_, by rw [hr], hm N x0, ?_, ?_⟩
  · unfold sumRun
    apply foldl_heavy
    intro s x
    simp [sumStep]
  · unfold weightedSumRun
    apply foldl_heavy
    intro s x
    simp [weightedSumStep]
  · unfold lazyWeightedVarianceRun
    rw [hr, hm]
  · unfold weightedKurtosisRun
    rw [hr, hm, hm, hm]

theorem heavy_prefixes {X : Type} {ps : List (X × K)} (h : NonzeroPrefixes Prod.snd ps) :
    NonzeroPrefixes Prod.snd (heavy ps) := by
  intro n h0 hn
  obtain ⟨l, hl, e⟩ := List.prefix_filter_iff.1 (List.take_prefix n (heavy ps))
  have hs : ((l.filter fun p => p.2 ≠ 0).map Prod.snd).sum = (l.map Prod.snd).sum := by
    clear hl e
    induction l with
    | nil => rfl
    | cons p l ih =>
      by_cases hp : p.2 = 0
      · simp only [ne_eq, hp, not_true_eq_false, decide_false, Bool.false_eq_true, not_false_eq_true,
          List.filter_cons_of_neg, List.map_cons, List.sum_cons, zero_add] at ih ⊢
        exact ih
      · simp only [ne_eq, hp, not_false_eq_true, decide_true, List.filter_cons_of_pos, List.map_cons,
          List.sum_cons, add_right_inj] at ih ⊢
        exact ih
  rw [e, hs]
  have hl' := List.prefix_iff_eq_take.1 hl
  rw [hl']
  refine h _ ?_ hl.length_le
  have : (l.filter fun p => p.2 ≠ 0).length = n := by
    rw [← e, List.length_take]
    omega
  have := List.length_filter_le (fun p : X × K => decide (p.2 ≠ 0)) l
  omega

theorem sum_heavy {X : Type} (f : X → K) (ps : List (X × K)) :
    ((heavy ps).map fun p => p.2 * f p.1).sum = (ps.map fun p => p.2 * f p.1).sum := by
  induction ps with
  | nil => rfl
  | cons p ps ih =>
    by_cases h : p.2 = 0
    · have : heavy (p :: ps) = heavy ps := by simp [heavy, h]
      rw [this, ih]
      simp [h]
    · have : heavy (p :: ps) = p :: heavy ps := by simp [heavy, h]
      rw [this, List.map_cons, List.sum_cons, ih]
      simp

theorem wtotal_heavy (ps : List (K × K)) : wtotal (heavy ps) = wtotal ps := by
  have := sum_heavy (fun _ => (1 : K)) ps
  simp only [mul_one] at this
  exact this

theorem wmean_heavy (ps : List (K × K)) : wmean (heavy ps) = wmean ps := by
  rw [wmean, wmean, wtotal_heavy, sum_heavy (fun x => x) ps]

theorem wcentral_heavy (k : ℕ) (ps : List (K × K)) : wcentralMoment k (heavy ps) = wcentralMoment k ps := by
  rw [wcentralMoment, wcentralMoment, wtotal_heavy, wmean_heavy, sum_heavy (fun x => (x - wmean ps) ^ k) ps]

theorem heavy_map {X Y : Type} (f : X → Y) (ps : List (X × K)) :
    (heavy ps).map (fun q => (f q.1, q.2)) = heavy (ps.map fun q => (f q.1, q.2)) := by
  simp [heavy, List.filter_map, Function.comp_def]

theorem wcov_heavy (ps : List ((K × K) × K)) : wcovariance (heavy ps) = wcovariance ps := by
  rw [wcovariance, wcovariance, heavy_map, heavy_map, wtotal_heavy, wmean_heavy, wmean_heavy,
    sum_heavy (fun x : K × K => (x.1 - wmean (ps.map fun q => (q.1.1, q.2)))
      * (x.2 - wmean (ps.map fun q => (q.1.2, q.2)))) ps]

theorem heavy_ne {X : Type} {ps : List (X × K)} (hne : ps ≠ []) (h : NonzeroPrefixes Prod.snd ps) : heavy ps ≠ [] := by
  intro h0
  have hl : 0 < ps.length := List.length_pos_of_ne_nil hne
  have h1 := h 1 (by omega) (by omega)
  cases ps with
  | nil => exact hne rfl
  | cons p ps =>
    simp at h1
    have : p ∈ heavy (p :: ps) := by simp [heavy, h1]
    rw [h0] at this
    simp at this

/-- **C75** The immediate weighted mean, the recursive weighted variance and the weighted covariance ignore samples
of weight zero, provided no partial sum of the weights vanishes (in particular the first sample has a weight). -/
theorem C75_immediate (P : MeanProvider (K × K) K) (hP : P.WCorrect) (x0 : K) {ps : List (K × K)}
    (hne : ps ≠ []) (h : NonzeroPrefixes Prod.snd ps) :
    (immWMean x0).read ((immWMean x0).run ps) = (immWMean x0).read ((immWMean x0).run (heavy ps)) ∧
    weightedVarianceRun P 0 ps = weightedVarianceRun P 0 (heavy ps) ∧
    lazyWeightedVarianceRun P ps = lazyWeightedVarianceRun P (heavy ps) := by
  have h' := heavy_prefixes h
  have hne' := heavy_ne hne h
  refine ⟨?_, ?_, ?_⟩
  · rw [C32_immediate x0 ps hne h, C32_immediate x0 _ hne' h', wmean_heavy]
  · rw [C33_immediate P hP ps hne h, C33_immediate P hP _ hne' h', wvariance, wvariance, wcentral_heavy]
  · rw [C33_lazy P hP ps hne h, C33_lazy P hP _ hne' h', wvariance, wvariance, wcentral_heavy]

/-- **C75 fails** for the immediate mean and the recursive variance when the stream starts with a sample of weight
zero, or more generally reaches a vanishing partial sum of weights: no later sample brings the mean back. -/
theorem C75_first_fails (x0 x : K) (qs : List (K × K)) :
    (immWMean x0).read ((immWMean x0).run ((x, 0) :: qs)) = .nonfinite ∧
    (qs ≠ [] → weightedVarianceRun (immWMean x0) 0 ((x, 0) :: qs) = .nonfinite) := by
  have key : ∀ (qs : List (K × K)) (s : WMean K), s.mean = .nonfinite →
      (qs.foldl (immWMean x0).push s).mean = .nonfinite := by
    intro qs
    induction qs with
    | nil => exact fun s h => h
    | cons q qs ih =>
      intro s h
      refine ih ((immWMean x0).push s q) ?_
      show immWMeanStep _ s.mean q = _
      rw [h]
      rfl
  have h1 : ((immWMean x0).push (immWMean x0).init (x, 0)).mean = .nonfinite := by
    simp [immWMean, immWMeanStep, sumStep]
  refine ⟨key qs _ h1, ?_⟩
  have key2 : ∀ (qs : List (K × K)) (s : WVarianceSt (WMean K) K), s.m.mean = .nonfinite → 1 ≤ s.cnt → qs ≠ [] →
      (qs.foldl (WVarianceSt.push (immWMean x0)) s).var = .nonfinite := by
    intro qs
    induction qs with
    | nil => exact fun s _ _ h => absurd rfl h
    | cons q qs ih =>
      intro s h hc _
      have h' : (WVarianceSt.push (immWMean x0) s q).m.mean = .nonfinite := by
        show immWMeanStep _ s.m.mean q = _
        rw [h]
        rfl
      by_cases hq : qs = []
      · subst hq
        show weightedVarianceStep (s.cnt + 1) _ (WVarianceSt.push (immWMean x0) s q).m.mean s.var q = _
        rw [h', weightedVarianceStep, if_pos (by omega)]
        rfl
      · exact ih _ h' (by show 1 ≤ s.cnt + 1; omega) hq
  exact key2 qs (WVarianceSt.push (immWMean x0) ⟨(immWMean x0).init, 0, 0, fdiv 0 1⟩ (x, 0)) h1 (by show 1 ≤ 0 + 1; omega)

theorem C75_covariance (P Q : MeanProvider (K × K) K) (hP : P.WCorrect) (hQ : Q.WCorrect)
    {ps : List ((K × K) × K)} (hne : ps ≠ []) (h : NonzeroPrefixes Prod.snd ps) :
    weightedCovarianceRun P Q ps = weightedCovarianceRun P Q (heavy ps) := by
  rw [C34_covariance P Q hP hQ ps hne h, C34_covariance P Q hP hQ _ (heavy_ne hne h) (heavy_prefixes h), wcov_heavy]

/-! ## Histograms -/

theorem binWeight_heavy (a b : K) (B i : ℕ) (ps : List (K × K)) :
    binWeight a b B i (heavy ps) = binWeight a b B i ps := by
  have key : ∀ l : List (K × K), ((l.filter fun p => p.2 ≠ 0).map Prod.snd).sum = (l.map Prod.snd).sum :=
    fun l => wtotal_heavy l
  unfold binWeight heavy
  rw [List.filter_comm, key]

theorem binWeight_append (a b : K) (B i : ℕ) (ps qs : List (K × K)) :
    binWeight a b B i (ps ++ qs) = binWeight a b B i ps + binWeight a b B i qs := by
  simp [binWeight]

/-- **C75** A histogram ignores samples of weight zero once the cache is full; before that it does not, see
`C75_density_cache`. -/
theorem C75_density {lo hi : K} {c B : ℕ} (hc : 0 < c) (hB : 0 < B) (x0 : K) {ps qs : List (K × K)}
    (hps : ps.length = c) (hlim : ∀ p ∈ ps ++ qs, lo ≤ p.1 ∧ p.1 ≤ hi) (hw : wtotal (ps ++ qs) ≠ 0) :
    (wdensitySet lo hi c B x0).answer (onlyPushes (ps ++ qs)) ()
      = (wdensitySet lo hi c B x0).answer (onlyPushes (ps ++ heavy qs)) () := by
  have hne : (ps.map Prod.fst) ≠ [] := by
    intro h0
    have := congrArg List.length h0
    rw [List.length_map, List.length_nil] at this
    omega
  have ha := (C09_min hi (ps.map Prod.fst) hne fun x hx => by
    obtain ⟨p, hp, rfl⟩ := List.mem_map.1 hx
    exact (hlim p (by simp [hp])).2)
  have hb := (C09_max lo (ps.map Prod.fst) hne fun x hx => by
    obtain ⟨p, hp, rfl⟩ := List.mem_map.1 hx
    exact (hlim p (by simp [hp])).1)
  have hwt : wtotal (ps ++ heavy qs) = wtotal (ps ++ qs) := by
    have := wtotal_heavy qs
    simp only [wtotal, List.map_append, List.sum_append] at this ⊢
    rw [this]
  have t1 : (ps ++ qs).take c = ps := by rw [← hps, List.take_left']; rfl
  have t2 : (ps ++ heavy qs).take c = ps := by rw [← hps, List.take_left']; rfl
  rw [C27_density hB x0 (onlyPushes (ps ++ qs)) (by simpa using hlim) (by simp; omega)
      (by simpa [t1] using ha) (by simpa [t1] using hb) (by simpa using hw),
    C27_density hB x0 (onlyPushes (ps ++ heavy qs))
      (by
        intro p hp
        refine hlim p ?_
        simp only [pushes_onlyPushes, List.mem_append] at hp ⊢
        exact hp.imp id fun h => List.mem_of_mem_filter h)
      (by simp; omega) (by simpa [t2] using ha) (by simpa [t2] using hb) (by simpa [hwt] using hw)]
  simp only [pushes_onlyPushes, hwt, binWeight_append, binWeight_heavy]

/-- **C75 fails** while the cache fills: a sample of weight zero determines the edges of the bins and takes a place
in the cache. -/
theorem C75_density_cache :
    (wdensitySet (-1000 : ℚ) 1000 2 1 0).answer (onlyPushes [(0, 1), (10, 0), (1, 1)]) ()
      ≠ (wdensitySet (-1000 : ℚ) 1000 2 1 0).answer (onlyPushes (heavy [(0, 1), (10, 0), (1, 1)])) () := by
  decide +kernel

/-! ## Tails -/

section tail
variable (H : HeapImpl ℕ) (side : Side) (hasNaN : Bool)

theorem totalWeight_heavy (ps : List (K × K)) (P : K × K → Bool) :
    totalWeight id ((heavy ps).filter P) = totalWeight id (ps.filter P) := by
  have := wtotal_heavy (ps.filter P)
  unfold heavy at this ⊢
  rw [List.filter_comm]
  exact this

/-- **C75** With a cache for all samples, the weighted tail quantile of a positive share ignores samples of weight
zero. -/
theorem C75_tail_quantile {k : ℕ} (x0 v0 : K) {ps : List (K × K)} {p : K} (hk : 1 ≤ k) (hkn : ps.length ≤ k)
    (hw : ∀ q ∈ ps, 0 ≤ q.2) (h0 : 0 ≤ p) (h1 : p ≤ 1) (hT : 0 < tailWeight side (totalWeight id ps) p) :
    ∃ x, wtailQuantile H side hasNaN id k x0 v0 (onlyPushes ps) p = .val x ∧
      wtailQuantile H side hasNaN id k x0 v0 (onlyPushes (heavy ps)) p = .val x := by
  have hTh : totalWeight id (heavy ps) = totalWeight id ps := by
    have := totalWeight_heavy ps fun _ => true
    simpa using this
  have hw' : ∀ q ∈ heavy ps, 0 ≤ q.2 := fun q hq => hw q (List.mem_of_mem_filter hq)
  obtain ⟨o, D, -, hv, -⟩ := wtail_out H side hk x0 v0 (onlyPushes (Q := Unit) ps)
  obtain ⟨o', D', -, hv', -⟩ := wtail_out H side hk x0 v0 (onlyPushes (Q := Unit) (heavy ps))
  have hlen : (heavy ps).length ≤ k := (List.length_filter_le _ _).trans hkn
  obtain ⟨x, -, ex, x1, x2⟩ := C37_quantile H side hasNaN x0 v0 (onlyPushes ps) (wt := id) (p := p) hk
    (by simpa using hw) (by simpa using hT) hv
    (C37_cache_large H side x0 v0 (onlyPushes ps) hk (by simpa using hkn) (by simpa using hw) h0 h1 hv)
  obtain ⟨y, -, ey, y1, y2⟩ := C37_quantile H side hasNaN x0 v0 (onlyPushes (heavy ps)) (wt := id) (p := p) hk
    (by simpa using hw') (by simpa [hTh] using hT) hv'
    (C37_cache_large H side x0 v0 (onlyPushes (heavy ps)) hk (by simpa using hlen) (by simpa using hw') h0 h1 hv')
  simp only [pushes_onlyPushes, hTh, weightBeyond, weightStrictlyBeyond, totalWeight_heavy] at x1 x2 y1 y2
  exact ⟨x, ex, by rw [ey, weighted_quantile_unique (side := side) hw y1 y2 x1 x2]⟩

end tail

/-- **C75 fails** for small caches: a sample of weight zero displaces one that matters. -/
theorem C75_tail_cache_fails :
    wtailQuantile HeapImpl.simple Side.right true id 2 (0 : ℚ) 0 (onlyPushes [(1, 1), (5, 1), (9, 0)]) (1 / 4)
      = .nonfinite ∧
    wtailQuantile HeapImpl.simple Side.right true id 2 (0 : ℚ) 0 (onlyPushes (heavy [(1, 1), (5, 1), (9, 0)])) (1 / 4)
      = .val 1 := by
  decide +kernel

/-- **C75 fails** for extremes and for P-square estimates: they do not look at the weight of a sample. -/
theorem C75_psq_fails :
    let ps : List (ℚ × ℚ) := [(0, 0), (1, 1), (2, 1), (3, 1), (4, 1), (5, 1), (100, 0)]
    maxRun ltb (-1000) (ps.map Prod.fst) ≠ maxRun ltb (-1000) ((heavy ps).map Prod.fst) ∧
    (wpsqQuantileSet (1 / 4)).answer (onlyPushes ps) () ≠ (wpsqQuantileSet (1 / 4)).answer (onlyPushes (heavy ps)) () := by
  decide +kernel

/-! ## The hypotheses can be met -/

example : (immWMean (0 : ℚ)).read ((immWMean 0).run [(3, 1), (7, 0), (5, 3)]) = .val (9 / 2) ∧
    (immWMean (0 : ℚ)).read ((immWMean 0).run (heavy [(3, 1), (7, 0), (5, 3)])) = .val (9 / 2) := by
  decide +kernel

example := (C75_immediate (lazyWMean (0 : ℚ)) lazyWMean_correct 0 (ps := [(3, 1), (7, 0), (5, 3)]) (by simp)
  (by
    intro n h0 hn
    simp at hn
    interval_cases n <;> norm_num)).2.1

example := C75_covariance (lazyWMean (0 : ℚ)) (lazyWMean (0 : ℚ)) lazyWMean_correct lazyWMean_correct
  (ps := [((3, 2), 1), ((7, 1), 0), ((5, 0), 3)]) (by simp)
  (by
    intro n h0 hn
    simp at hn
    interval_cases n <;> norm_num)

example := C75_density (lo := (-10 : ℚ)) (hi := 10) (c := 2) (B := 3) (by norm_num) (by norm_num) 0
  (ps := [(1, 1), (2, 0)]) (qs := [(3, 2), (4, 0), (1, 1)]) rfl (by norm_num) (by norm_num [wtotal])

example := C75_tail_quantile HeapImpl.simple .left true (k := 4) (0 : ℚ) 0 (ps := [(1, 1), (2, 0), (3, 2)]) (p := 1 / 2)
  (by norm_num) (by simp) (by norm_num) (by norm_num) (by norm_num) (by norm_num [tailWeight, totalWeight])

end Acc
