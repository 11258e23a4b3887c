import Verif.Proofs.Cplx
import Verif.Props.Weighted

/-!
# Complex samples (C72)

`toC` turns a pair of parts into the complex number.  Real and imaginary parts are taken as exact.
-/

set_option linter.unusedSectionVars false

namespace Acc

open Cx

/-- **C72** The sum of complex samples: the parts are summed separately. -/
theorem C72_sum (x0 : Cx ℝ) (zs : List (Cx ℝ)) :
    (sumRun id x0 zs).re = x0.re + (zs.map Cx.re).sum ∧ (sumRun id x0 zs).im = x0.im + (zs.map Cx.im).sum := by
  induction zs using List.reverseRecOn with
  | nil => simp [sumRun]
  | append_singleton zs z ih =>
    simp only [sumRun, List.foldl_append, List.foldl_cons, List.foldl_nil] at ih ⊢
    simp only [sumStep, id, add_re, add_im, List.map_append, List.map_cons, List.map_nil, List.sum_append,
      List.sum_cons, List.sum_nil, add_zero] at ih ⊢
    rw [ih.1, ih.2]
    constructor <;> ring

/-- Sums of real and imaginary parts. -/
theorem sum_re_im {X : Type} (f : X → ℂ) (l : List X) :
    (l.map f).sum.re = (l.map fun a => (f a).re).sum ∧ (l.map f).sum.im = (l.map fun a => (f a).im).sum := by
  induction l with
  | nil => simp
  | cons a l ih => simp [ih.1, ih.2]

/-- The mean in `ℂ` is the mean of the parts. -/
theorem mean_re_im (zs : List ℂ) :
    (Spec.mean zs).re = Spec.mean (zs.map Complex.re) ∧ (Spec.mean zs).im = Spec.mean (zs.map Complex.im) := by
  have h := sum_re_im id zs
  simp only [List.map_id, id] at h
  have e : ((zs.length : ℕ) : ℂ) = ((zs.length : ℝ) : ℂ) := by simp
  unfold Spec.mean
  rw [e, Complex.div_ofReal_re, Complex.div_ofReal_im, h.1, h.2]
  simp

theorem toC_parts (zs : List (Cx ℝ)) :
    (zs.map toC).map Complex.re = zs.map Cx.re ∧ (zs.map toC).map Complex.im = zs.map Cx.im := by
  simp [Function.comp_def]

/-- **C72** Both variants of the mean: the mean of the real parts and the mean of the imaginary parts. -/
theorem C72_mean (x0 : Cx ℝ) (zs : List (Cx ℝ)) (h : zs ≠ []) :
    ∃ m : Cx ℝ, (Cx.lazyMean 0).read ((Cx.lazyMean 0).run zs) = .val m ∧
      (Cx.immMean x0).read ((Cx.immMean x0).run zs) = .val m ∧
      m.re = Spec.mean (zs.map Cx.re) ∧ m.im = Spec.mean (zs.map Cx.im) := by
  have h' : zs.map toC ≠ [] := by simpa using h
  have h1 := lazyMean_sim 0 zs
  have h2 := immMean_sim x0 zs
  rw [toC_zero, lazyMean_correct _ h'] at h1
  rw [immMean_correct _ _ h'] at h2
  obtain ⟨m, hm, em⟩ := mapC_eq_val h1
  obtain ⟨m', hm', em'⟩ := mapC_eq_val h2
  obtain rfl := toC_inj (em.trans em'.symm)
  refine ⟨m, hm, hm', ?_, ?_⟩
  · rw [← toC_re, em, (mean_re_im _).1, (toC_parts zs).1]
  · rw [← toC_im, em, (mean_re_im _).2, (toC_parts zs).2]

/-- **C72** `moment<N>`: the mean of the complex powers. -/
theorem C72_moment {N : ℕ} (_hN : 0 < N) (zs : List (Cx ℝ)) (h : zs ≠ []) :
    ∃ m : Cx ℝ, Cx.momentRun N 0 zs = .val m ∧ toC m = (zs.map fun z => toC z ^ N).sum / (zs.length : ℂ) := by
  have h1 := momentRun_sim N 0 zs
  rw [toC_zero, C05_moment N _hN _ (by simpa using h)] at h1
  obtain ⟨m, hm, em⟩ := mapC_eq_val h1
  refine ⟨m, hm, em.trans ?_⟩
  simp [Function.comp_def]

/-- The variance in `ℂ`, in terms of the parts. -/
theorem variance_re_im (zs : List (Cx ℝ)) :
    (Spec.variance (zs.map toC)).re = Spec.variance (zs.map Cx.re) - Spec.variance (zs.map Cx.im) ∧
    (Spec.variance (zs.map toC)).im = 2 * Spec.covariance (zs.map fun z => (z.re, z.im)) := by
  have e : (((zs.map toC).length : ℕ) : ℂ) = ((zs.length : ℝ) : ℂ) := by simp
  have hm := mean_re_im (zs.map toC)
  rw [(toC_parts zs).1, (toC_parts zs).2] at hm
  have hs := sum_re_im (fun z : Cx ℝ => (toC z - Spec.mean (zs.map toC)) ^ 2) zs
  unfold Spec.variance Spec.centralMoment Spec.covariance
  rw [e, Complex.div_ofReal_re, Complex.div_ofReal_im, List.map_map, List.map_map, List.map_map]
  simp only [Function.comp_def]
  rw [hs.1, hs.2]
  simp only [pow_two, Complex.mul_re, Complex.mul_im, Complex.sub_re, Complex.sub_im, toC_re, toC_im, hm.1, hm.2,
    List.length_map, List.map_map, Function.comp_def]
  clear hs hm e
  have k1 : ∀ (p q : ℝ) (l : List (Cx ℝ)),
      (l.map fun a => (a.re - p) * (a.re - p) - (a.im - q) * (a.im - q)).sum
        = (l.map fun a => (a.re - p) * (a.re - p)).sum - (l.map fun a => (a.im - q) * (a.im - q)).sum := by
    intro p q l
    induction l with
    | nil => simp
    | cons b l ih => simp only [List.map_cons, List.sum_cons, ih]; ring
  have k2 : ∀ (p q : ℝ) (l : List (Cx ℝ)),
      (l.map fun a => (a.re - p) * (a.im - q) + (a.im - q) * (a.re - p)).sum
        = 2 * (l.map fun a => (a.re - p) * (a.im - q)).sum := by
    intro p q l
    induction l with
    | nil => simp
    | cons b l ih => simp only [List.map_cons, List.sum_cons, ih]; ring
  constructor
  · rw [k1, sub_div]
  · rw [k2, mul_div_assoc]

/-- **C72** The variance, lazy or immediate, reading either mean, is the average of the squares `(z - m)²` in `ℂ`, not of
`|z - m|²`: its real part is the variance of the real parts minus that of the imaginary parts, its imaginary part twice
their covariance. -/
theorem C72_variance (x0 : Cx ℝ) (zs : List (Cx ℝ)) (h : zs ≠ []) :
    ∀ P ∈ [Cx.lazyMean (0 : Cx ℝ), Cx.immMean x0], ∃ v : Cx ℝ,
      Cx.varianceRun P zs = .val v ∧ Cx.lazyVarianceRun P zs = .val v ∧
      toC v = (zs.map fun z => (toC z - (zs.map toC).sum / (zs.length : ℂ)) ^ 2).sum / (zs.length : ℂ) ∧
      v.re = Spec.variance (zs.map Cx.re) - Spec.variance (zs.map Cx.im) ∧
      v.im = 2 * Spec.covariance (zs.map fun z => (z.re, z.im)) := by
  have h' : zs.map toC ≠ [] := by simpa using h
  have key : ∀ (P : MeanProvider (Cx ℝ) (Cx ℝ)) (P' : MeanProvider ℂ ℂ), Sim toC P P' → P'.Correct → ∃ v : Cx ℝ,
      Cx.varianceRun P zs = .val v ∧ Cx.lazyVarianceRun P zs = .val v ∧
      toC v = (zs.map fun z => (toC z - (zs.map toC).sum / (zs.length : ℂ)) ^ 2).sum / (zs.length : ℂ) ∧
      v.re = Spec.variance (zs.map Cx.re) - Spec.variance (zs.map Cx.im) ∧
      v.im = 2 * Spec.covariance (zs.map fun z => (z.re, z.im)) := by
    intro P P' hs hc
    have h1 := varianceRun_sim hs zs
    have h2 := lazyVarianceRun_sim hs zs
    rw [C06_variance P' hc _ h'] at h1
    rw [C06_lazy_variance P' hc _ h'] at h2
    obtain ⟨v, hv, ev⟩ := mapC_eq_val h1
    obtain ⟨v', hv', ev'⟩ := mapC_eq_val h2
    obtain rfl := toC_inj (ev.trans ev'.symm)
    refine ⟨v, hv, hv', ev.trans ?_, ?_, ?_⟩
    · simp [Spec.variance, Spec.centralMoment, Spec.mean, Function.comp_def]
    · rw [← toC_re, ev, (variance_re_im zs).1]
    · rw [← toC_im, ev, (variance_re_im zs).2]
  intro P hP
  simp only [List.mem_cons, List.not_mem_nil, or_false] at hP
  rcases hP with rfl | rfl
  · exact key _ _ (by simpa using lazyMean_sim 0) lazyMean_correct
  · exact key _ _ (immMean_sim x0) (immMean_correct _)

/-- **C72** What users expect of a variance fails for complex samples: it is -1 for `i, -i`, imaginary for `0, 1 + i`, and 0
for the four different samples `1, i, -1, -i`. -/
theorem C72_variance_fails :
    Cx.varianceRun (Cx.lazyMean 0) [⟨0, 1⟩, ⟨0, -1⟩] = .val (⟨-1, 0⟩ : Cx ℚ) ∧
    Cx.varianceRun (Cx.lazyMean 0) [⟨0, 0⟩, ⟨1, 1⟩] = .val (⟨0, 1 / 2⟩ : Cx ℚ) ∧
    Cx.varianceRun (Cx.lazyMean 0) [⟨1, 0⟩, ⟨0, 1⟩, ⟨-1, 0⟩, ⟨0, -1⟩] = .val (⟨0, 0⟩ : Cx ℚ) := by
  decide +kernel

/-- **C72** The covariance with a complex covariate: the average of `(x - mean x) (y - mean y)`, without conjugation. -/
theorem C72_covariance (x0 y0 : Cx ℝ) (ps : List (Cx ℝ × Cx ℝ)) (h : ps ≠ []) :
    ∀ P ∈ [Cx.lazyMean (0 : Cx ℝ), Cx.immMean x0], ∀ Q ∈ [Cx.lazyMean (0 : Cx ℝ), Cx.immMean y0], ∃ c : Cx ℝ,
      Cx.covarianceRun P Q ps = .val c ∧ toC c = Spec.covariance (ps.map fun p => (toC p.1, toC p.2)) := by
  have key : ∀ (x0 : Cx ℝ) (P : MeanProvider (Cx ℝ) (Cx ℝ)), P ∈ [Cx.lazyMean (0 : Cx ℝ), Cx.immMean x0] →
      ∃ P' : MeanProvider ℂ ℂ, Sim toC P P' ∧ P'.Correct := by
    intro x0 P hP
    simp only [List.mem_cons, List.not_mem_nil, or_false] at hP
    rcases hP with rfl | rfl
    · exact ⟨_, lazyMean_sim 0, by simpa using lazyMean_correct⟩
    · exact ⟨_, immMean_sim x0, immMean_correct _⟩
  intro P hP Q hQ
  obtain ⟨P', sP, cP⟩ := key x0 P hP
  obtain ⟨Q', sQ, cQ⟩ := key y0 Q hQ
  have h1 := covarianceRun_sim sP sQ ps
  rw [C08_covariance P' Q' cP cQ _ (by simpa using h)] at h1
  obtain ⟨c, hc, ec⟩ := mapC_eq_val h1
  exact ⟨c, hc, ec⟩

/-! ## Real weights -/

/-- **C72** The weighted sum with real weights. -/
theorem C72_weighted_sum (x0 : Cx ℝ) (ps : List (Cx ℝ × ℝ)) :
    (Cx.weightedSumRun x0 ps).re = x0.re + (ps.map fun p => p.1.re * p.2).sum ∧
    (Cx.weightedSumRun x0 ps).im = x0.im + (ps.map fun p => p.1.im * p.2).sum := by
  induction ps using List.reverseRecOn with
  | nil => simp [Cx.weightedSumRun]
  | append_singleton ps p ih =>
    simp only [Cx.weightedSumRun, List.foldl_append, List.foldl_cons, List.foldl_nil] at ih ⊢
    simp only [Cx.weightedSumStep, add_re, add_im, scale_re, scale_im, List.map_append, List.map_cons, List.map_nil,
      List.sum_append, List.sum_cons, List.sum_nil, add_zero] at ih ⊢
    rw [ih.1, ih.2]
    constructor <;> ring

/-- Real weights in `ℂ`. -/
theorem nonzeroPrefixes_toCW {ps : List (Cx ℝ × ℝ)} (h : Spec.NonzeroPrefixes Prod.snd ps) :
    Spec.NonzeroPrefixes Prod.snd (ps.map toCW) := by
  intro n h0 hn
  have := h n h0 (by simpa using hn)
  rw [← List.map_take, List.map_map]
  have e : ((ps.take n).map (Prod.snd ∘ toCW)).sum = (((ps.take n).map Prod.snd).sum : ℝ) := by
    generalize ps.take n = l
    induction l with
    | nil => simp
    | cons a l ih => simp [ih, toCW]
  rw [e]
  exact_mod_cast this

/-- The weighted mean in `ℂ` with real weights is the weighted mean of the parts. -/
theorem wmean_re_im (ps : List (Cx ℝ × ℝ)) :
    (Spec.wmean (ps.map toCW)).re = Spec.wmean (ps.map fun p => (p.1.re, p.2)) ∧
    (Spec.wmean (ps.map toCW)).im = Spec.wmean (ps.map fun p => (p.1.im, p.2)) := by
  have e : Spec.wtotal (ps.map toCW) = (((ps.map Prod.snd).sum : ℝ) : ℂ) := by
    unfold Spec.wtotal
    induction ps with
    | nil => simp
    | cons a l ih => simp only [List.map_cons, List.sum_cons, ih, toCW]; push_cast; rfl
  have hs := sum_re_im (fun p : Cx ℝ × ℝ => (p.2 : ℂ) * toC p.1) ps
  unfold Spec.wmean
  rw [e, Complex.div_ofReal_re, Complex.div_ofReal_im, List.map_map]
  constructor
  · rw [show (fun p : ℂ × ℂ => p.2 * p.1) ∘ toCW = fun p : Cx ℝ × ℝ => (p.2 : ℂ) * toC p.1 from rfl, hs.1]
    simp [Spec.wtotal, Function.comp_def]
  · rw [show (fun p : ℂ × ℂ => p.2 * p.1) ∘ toCW = fun p : Cx ℝ × ℝ => (p.2 : ℂ) * toC p.1 from rfl, hs.2]
    simp [Spec.wtotal, Function.comp_def]

/-- **C72** Weighted mean with real weights, lazy and immediate. -/
theorem C72_weighted_mean (x0 : Cx ℝ) (ps : List (Cx ℝ × ℝ)) (hne : ps ≠ [])
    (h : Spec.NonzeroPrefixes Prod.snd ps) :
    ∃ m : Cx ℝ, (Cx.lazyWMean 0).read ((Cx.lazyWMean 0).run ps) = .val m ∧
      (Cx.immWMean x0).read ((Cx.immWMean x0).run ps) = .val m ∧
      m.re = Spec.wmean (ps.map fun p => (p.1.re, p.2)) ∧ m.im = Spec.wmean (ps.map fun p => (p.1.im, p.2)) := by
  have h' : ps.map toCW ≠ [] := by simpa using hne
  have h1 := lazyWMean_sim 0 ps
  have h2 := immWMean_sim x0 ps
  rw [toC_zero, lazyWMean_correct _ h' (nonzeroPrefixes_toCW h)] at h1
  rw [immWMean_correct _ _ h' (nonzeroPrefixes_toCW h)] at h2
  obtain ⟨m, hm, em⟩ := mapC_eq_val h1
  obtain ⟨m', hm', em'⟩ := mapC_eq_val h2
  obtain rfl := toC_inj (em.trans em'.symm)
  refine ⟨m, hm, hm', ?_, ?_⟩
  · rw [← toC_re, em, (wmean_re_im _).1]
  · rw [← toC_im, em, (wmean_re_im _).2]

/-- **C72** Weighted moments and variances with real weights: the textbook expressions in `ℂ` (squares, not squared
absolute values). -/
theorem C72_weighted_variance (x0 : Cx ℝ) (ps : List (Cx ℝ × ℝ)) (hne : ps ≠ [])
    (h : Spec.NonzeroPrefixes Prod.snd ps) {N : ℕ} (_hN : 0 < N) :
    (∃ m : Cx ℝ, Cx.weightedMomentRun N 0 ps = .val m ∧
      toC m = Spec.wrawMoment N (ps.map fun p => (toC p.1, (p.2 : ℂ)))) ∧
    ∀ P ∈ [Cx.lazyWMean (0 : Cx ℝ), Cx.immWMean x0], ∃ v : Cx ℝ,
      Cx.weightedVarianceRun P ps = .val v ∧ Cx.lazyWeightedVarianceRun P ps = .val v ∧
      toC v = Spec.wvariance (ps.map fun p => (toC p.1, (p.2 : ℂ))) := by
  have h' : ps.map toCW ≠ [] := by simpa using hne
  have hz := nonzeroPrefixes_toCW h
  constructor
  · have h1 := weightedMomentRun_sim N 0 ps
    rw [toC_zero, C34_moment N _ (hz.total h')] at h1
    obtain ⟨m, hm, em⟩ := mapC_eq_val h1
    exact ⟨m, hm, em⟩
  have key : ∀ (P : MeanProvider (Cx ℝ × ℝ) (Cx ℝ)) (P' : MeanProvider (ℂ × ℂ) ℂ), Sim toCW P P' → P'.WCorrect →
      ∃ v : Cx ℝ, Cx.weightedVarianceRun P ps = .val v ∧ Cx.lazyWeightedVarianceRun P ps = .val v ∧
      toC v = Spec.wvariance (ps.map fun p => (toC p.1, (p.2 : ℂ))) := by
    intro P P' hs hc
    have h1 := weightedVarianceRun_sim hs ps
    have h2 := lazyWeightedVarianceRun_sim hs ps
    rw [C33_immediate P' hc _ h' hz] at h1
    rw [C33_lazy P' hc _ h' hz] at h2
    obtain ⟨v, hv, ev⟩ := mapC_eq_val h1
    obtain ⟨v', hv', ev'⟩ := mapC_eq_val h2
    obtain rfl := toC_inj (ev.trans ev'.symm)
    exact ⟨v, hv, hv', ev⟩
  intro P hP
  simp only [List.mem_cons, List.not_mem_nil, or_false] at hP
  rcases hP with rfl | rfl
  · exact key _ _ (by simpa using lazyWMean_sim 0) lazyWMean_correct
  · exact key _ _ (immWMean_sim x0) (immWMean_correct _)

/-! ## Complex weights -/

/-- **C72** Complex weights, no initial sample: the weighted sum and the weighted mean are right. -/
theorem C72_complex_weights (ps : List (Cx ℝ × Cx ℝ)) :
    toC (Acc.weightedSumRun 0 ps) = (ps.map fun p => toC p.1 * toC p.2).sum ∧
    ((ps.map fun p => toC p.2).sum ≠ 0 →
      ∃ m : Cx ℝ, (Acc.lazyWMean (0 : Cx ℝ)).read ((Acc.lazyWMean 0).run ps) = .val m ∧
        toC m = (ps.map fun p => toC p.1 * toC p.2).sum / (ps.map fun p => toC p.2).sum) := by
  have hdiv : ∀ a b : Cx ℝ, b ≠ 0 → toC (a / b) = toC a / toC b := by
    intro a b _
    apply Complex.ext
    · show (a.re * b.re + a.im * b.im) / (b.re * b.re + b.im * b.im) = _
      rw [Complex.div_re, Complex.normSq_apply]
      simp [add_div]
    · show (a.im * b.re - a.re * b.im) / (b.re * b.re + b.im * b.im) = _
      rw [Complex.div_im, Complex.normSq_apply]
      simp [sub_div]
  have hs : ∀ ps : List (Cx ℝ × Cx ℝ), ((Acc.lazyWMean (0 : Cx ℝ)).run ps : Acc.WSums (Cx ℝ)).wsum
      = Acc.weightedSumRun 0 ps ∧
      toC ((Acc.lazyWMean (0 : Cx ℝ)).run ps : Acc.WSums (Cx ℝ)).sumW = (ps.map fun p => toC p.2).sum ∧
      toC (Acc.weightedSumRun 0 ps) = (ps.map fun p => toC p.1 * toC p.2).sum := by
    intro ps
    induction ps using List.reverseRecOn with
    | nil => simp [MeanProvider.run, Acc.lazyWMean, Acc.weightedSumRun]
    | append_singleton ps p ih =>
      obtain ⟨h1, h2, h3⟩ := ih
      simp only [MeanProvider.run, Acc.weightedSumRun, List.foldl_append, List.foldl_cons, List.foldl_nil]
        at h1 h2 h3 ⊢
      refine ⟨?_, ?_, ?_⟩
      · rw [← h1]; rfl
      · simp only [List.map_append, List.map_cons, List.map_nil, List.sum_append, List.sum_cons, List.sum_nil, add_zero]
        rw [← h2]
        simp only [Acc.lazyWMean, sumStep, toC_add]
      · simp only [List.map_append, List.map_cons, List.map_nil, List.sum_append, List.sum_cons, List.sum_nil, add_zero]
        rw [← h3]
        simp [Acc.weightedSumStep]
  obtain ⟨h1, h2, h3⟩ := hs ps
  refine ⟨h3, fun hne => ?_⟩
  have hb : ((Acc.lazyWMean (0 : Cx ℝ)).run ps : Acc.WSums (Cx ℝ)).sumW ≠ 0 := by
    intro e
    rw [e, toC_zero] at h2
    exact hne h2.symm
  refine ⟨((Acc.lazyWMean (0 : Cx ℝ)).run ps : Acc.WSums (Cx ℝ)).wsum
    / ((Acc.lazyWMean (0 : Cx ℝ)).run ps : Acc.WSums (Cx ℝ)).sumW, ?_, ?_⟩
  · exact if_neg hb
  · rw [hdiv _ _ hb, h1, h2, h3]

/-- **C72 fails** with complex weights and an initial sample: `numeric::one<std::complex<T>>::value` is `1 + i`, so the
weighted sum starts from the initial sample times `1 + i`. -/
theorem C72_one_fails (x0 : Cx ℝ) (ps : List (Cx ℝ × Cx ℝ)) :
    toC (Acc.weightedSumRun x0 ps) = toC x0 * (1 + Complex.I) + (ps.map fun p => toC p.1 * toC p.2).sum := by
  induction ps using List.reverseRecOn with
  | nil =>
    have : toC (1 : Cx ℝ) = 1 + Complex.I := by
      apply Complex.ext
      · show (1 : ℝ) = _
        simp
      · show (1 : ℝ) = _
        simp
    simp [Acc.weightedSumRun, this]
  | append_singleton ps p ih =>
    simp only [Acc.weightedSumRun, List.foldl_append, List.foldl_cons, List.foldl_nil] at ih ⊢
    simp only [List.map_append, List.map_cons, List.map_nil, List.sum_append, List.sum_cons, List.sum_nil, add_zero,
      ← add_assoc]
    rw [← ih]
    simp [Acc.weightedSumStep]

/-! ## Instances -/

example : Cx.momentRun 3 0 [⟨1, 2⟩, ⟨0, 1⟩, (⟨-1, 1⟩ : Cx ℚ)] = .val ⟨-3, -1 / 3⟩ := by decide +kernel

example : Cx.weightedVarianceRun (Cx.immWMean 0) [(⟨1, 2⟩, 1), (⟨0, 1⟩, 2), ((⟨-1, 1⟩, 3) : Cx ℚ × ℚ)]
    = Cx.lazyWeightedVarianceRun (Cx.lazyWMean 0) [(⟨1, 2⟩, 1), (⟨0, 1⟩, 2), (⟨-1, 1⟩, 3)] := by decide +kernel

example : Spec.NonzeroPrefixes Prod.snd [((⟨1, 2⟩ : Cx ℝ), (1 : ℝ)), (⟨0, 1⟩, -2)] := by
  intro n h0 hn
  simp only [List.length_cons, List.length_nil, zero_add] at hn
  interval_cases n <;> norm_num

/-- The weighted sum of no samples, from the initial sample 1: it should be 1. -/
example : Acc.weightedSumRun (⟨1, 0⟩ : Cx ℚ) [] = ⟨1, 1⟩ := by decide +kernel

end Acc
