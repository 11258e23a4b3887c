import Verif.Proofs.Weighted
import Verif.Props.Basic

/-!
# Properties of the weighted statistics (C32–C36)

`Spec.NonzeroPrefixes` (every non-empty initial part of the stream has non-zero total weight) holds in
particular for positive weights (`nonzeroPrefixes_of_pos`).
-/

set_option linter.unusedSectionVars false

namespace Acc

universe u

section field
variable {K : Type u} [Field K] [DecidableEq K] [CharZero K]

/-! ## C32 -/

/-- **C02/C32** `weighted_sum` is the initial value plus `Σ xᵢ wᵢ`. -/
theorem C02_weighted_sum (x0 : K) (ps : List (K × K)) :
    weightedSumRun x0 ps = x0 + (ps.map (fun p => p.1 * p.2)).sum := weightedSumRun_eq x0 ps

/-- **C03** `weighted_sum_kahan` agrees with `weighted_sum` and its compensation is zero. -/
theorem C03_weighted_kahan (x0 : K) (ps : List (K × K)) :
    (weightedKahanRun x0 ps).sum = weightedSumRun x0 ps ∧
      (weightedKahanRun x0 ps).compensation = 0 := by
  rw [weightedKahanRun_eq, weightedSumRun_eq]; exact ⟨rfl, rfl⟩

/-- **C57** for `weighted_sum_kahan`: additions and multiplications of the number type are arbitrary; the corrected
sum is the exact total of the products the type delivers. -/
theorem C57_weighted_kahan_rounding {M : Type u} [AddCommGroup M] [One M] (add mul : M → M → M) (x0 : M)
    (ps : List (M × M)) :
    let s := @weightedKahanRun M ⟨add⟩ _ ⟨mul⟩ _ _ x0 ps
    s.sum - s.compensation = mul x0 1 + (ps.map fun p => mul p.1 p.2).sum := by
  intro s
  have key : ∀ (ps : List (M × M)) (k : Kahan M),
      (ps.foldl (@weightedKahanStep M ⟨add⟩ _ ⟨mul⟩) k).sum
        - (ps.foldl (@weightedKahanStep M ⟨add⟩ _ ⟨mul⟩) k).compensation
      = k.sum - k.compensation + (ps.map fun p => mul p.1 p.2).sum := by
    intro ps
    induction ps with
    | nil => intro k; simp
    | cons a as ih =>
      intro k
      rw [List.foldl_cons, ih, List.map_cons, List.sum_cons]
      have h : ∀ t : M, t - (t - k.sum - (mul a.1 a.2 - k.compensation))
          = k.sum - k.compensation + mul a.1 a.2 := by
        intro t; abel
      simp only [weightedKahanStep]
      exact (congrArg (· + _) (h _)).trans (add_assoc _ _ _)
  have := key ps ⟨mul x0 1, 0⟩
  simp only [sub_zero] at this
  exact this

example : (@weightedKahanRun ℤ ⟨fun a b => (a + b) / 4 * 4⟩ _ ⟨fun a b => a * b + 1⟩ _ _ 0
    [(2, 1), (1, 3), (1, 1)]).compensation = -2 := by decide +kernel

/-- **C32** `weighted_mean` is `Σ wᵢxᵢ / Σ wᵢ` whenever the total weight is non-zero. -/
theorem C32_lazy (ps : List (K × K)) (h : Spec.wtotal ps ≠ 0) :
    (lazyWMean (0 : K)).read ((lazyWMean 0).run ps) = .val (Spec.wmean ps) := by
  rw [lazyWMean_run]
  simp [lazyWMean, Spec.wmean, fdiv, h]

/-- **C32** With zero total weight (in particular without samples) the lazy mean is not finite. -/
theorem C32_lazy_zero (x0 : K) (ps : List (K × K)) (h : Spec.wtotal ps = 0) :
    (lazyWMean x0).read ((lazyWMean x0).run ps) = .nonfinite := by
  rw [lazyWMean_run]
  simp [lazyWMean, h]

/-- **C32** `immediate_weighted_mean` is `Σ wᵢxᵢ / Σ wᵢ`, if no partial sum of weights vanishes. -/
theorem C32_immediate (x0 : K) (ps : List (K × K)) (hne : ps ≠ [])
    (h : Spec.NonzeroPrefixes Prod.snd ps) :
    (immWMean x0).read ((immWMean x0).run ps) = .val (Spec.wmean ps) :=
  immWMean_correct x0 ps hne h

/-- **C32** The two variants agree. -/
theorem C32_agree (x0 : K) (ps : List (K × K)) (hne : ps ≠ [])
    (h : Spec.NonzeroPrefixes Prod.snd ps) :
    (lazyWMean (0 : K)).read ((lazyWMean 0).run ps) =
      (immWMean x0).read ((immWMean x0).run ps) := by
  rw [C32_immediate x0 ps hne h, C32_lazy ps (h.total hne)]

/-- **C32** Why the hypothesis is there: a leading zero weight makes the immediate mean NaN for ever,
the lazy one recovers. -/
theorem C32_zero_prefix_differs :
    (immWMean (0 : ℚ)).read ((immWMean 0).run [(5, 0), (3, 1)]) = .nonfinite ∧
    (lazyWMean (0 : ℚ)).read ((lazyWMean 0).run [(5, 0), (3, 1)]) = .val 3 := by
  constructor
  · simp [MeanProvider.run, immWMean, immWMeanStep, sumStep]
  · rw [C32_lazy _ (by norm_num [Spec.wtotal])]
    norm_num [Spec.wmean, Spec.wtotal]

example : (immWMean (0 : ℚ)).read ((immWMean 0).run [(5, 2), (3, 1), (1, -1)]) = .val 6 := by
  rw [C32_immediate _ _ (by simp)]
  · norm_num [Spec.wmean, Spec.wtotal]
  · intro n h0 hn
    simp at hn
    interval_cases n <;> norm_num

/-! ## C33 -/

/-- **C33** `lazy_weighted_variance` is `(1/W) Σ wᵢ (xᵢ - mean)²`, over either mean provider. -/
theorem C33_lazy (P : MeanProvider (K × K) K) (hP : P.WCorrect) (ps : List (K × K)) (hne : ps ≠ [])
    (h : Spec.NonzeroPrefixes Prod.snd ps) :
    lazyWeightedVarianceRun P ps = .val (Spec.wvariance ps) := by
  have hW : Spec.wtotal ps ≠ 0 := h.total hne
  unfold lazyWeightedVarianceRun
  rw [hP ps hne h, weightedMomentRun_eq, fdiv_ne hW, zero_add]
  simp only [lazyVarianceResult, Res.val_bind, Res.pure_eq]
  unfold Spec.wvariance
  rw [wcentralTwo_eq hW]
  rfl

/-- **C33** `weighted_variance` (recursive) is the same number. -/
theorem C33_immediate (P : MeanProvider (K × K) K) (hP : P.WCorrect) (ps : List (K × K))
    (hne : ps ≠ []) (h : Spec.NonzeroPrefixes Prod.snd ps) :
    weightedVarianceRun P 0 ps = .val (Spec.wvariance ps) := by
  unfold weightedVarianceRun
  rw [wvariance_foldl P hP ps h]
  simp [hne]

/-- **C33** Lazy and immediate variants agree, whatever mean providers they read. -/
theorem C33_agree (P Q : MeanProvider (K × K) K) (hP : P.WCorrect) (hQ : Q.WCorrect)
    (ps : List (K × K)) (hne : ps ≠ []) (h : Spec.NonzeroPrefixes Prod.snd ps) :
    lazyWeightedVarianceRun P ps = weightedVarianceRun Q 0 ps := by
  rw [C33_lazy P hP ps hne h, C33_immediate Q hQ ps hne h]

/-! ## C34 -/

/-- **C34** `weighted_moment<N>` is `(1/W) Σ wᵢ xᵢᴺ`. -/
theorem C34_moment (N : ℕ) (ps : List (K × K)) (h : Spec.wtotal ps ≠ 0) :
    weightedMomentRun N 0 ps = .val (Spec.wrawMoment N ps) := by
  rw [weightedMomentRun_eq, fdiv_ne h, zero_add]
  rfl

/-- **C34** `weighted_kurtosis` is `m₄/m₂² - 3` with weighted central moments. -/
theorem C34_kurtosis (P : MeanProvider (K × K) K) (hP : P.WCorrect) (ps : List (K × K))
    (hne : ps ≠ []) (h : Spec.NonzeroPrefixes Prod.snd ps) (hv : Spec.wvariance ps ≠ 0) :
    weightedKurtosisRun P ps =
      .val (Spec.wcentralMoment 4 ps / (Spec.wcentralMoment 2 ps) ^ 2 - 3) := by
  have hW : Spec.wtotal ps ≠ 0 := h.total hne
  unfold weightedKurtosisRun
  rw [C34_moment 2 ps hW, C34_moment 3 ps hW, C34_moment 4 ps hW, hP ps hne h]
  have hv' : Spec.wrawMoment 2 ps - Spec.wmean ps * Spec.wmean ps ≠ 0 := by
    rw [← wcentralTwo_eq hW]; exact hv
  simp only [kurtosisResult, Res.val_bind]
  rw [fdiv_ne (mul_ne_zero hv' hv')]
  simp [wcentralTwo_eq hW, wcentralFour_eq hW, sq]

/-- **C34** With zero weighted variance the kurtosis is not a number. -/
theorem C34_kurtosis_degenerate (P : MeanProvider (K × K) K) (hP : P.WCorrect) (ps : List (K × K))
    (hne : ps ≠ []) (h : Spec.NonzeroPrefixes Prod.snd ps) (hv : Spec.wvariance ps = 0) :
    weightedKurtosisRun P ps = .nonfinite := by
  have hW : Spec.wtotal ps ≠ 0 := h.total hne
  unfold weightedKurtosisRun
  rw [C34_moment 2 ps hW, C34_moment 3 ps hW, C34_moment 4 ps hW, hP ps hne h]
  have hv' : Spec.wrawMoment 2 ps - Spec.wmean ps * Spec.wmean ps = 0 := by
    rw [← wcentralTwo_eq hW]; exact hv
  simp [kurtosisResult, hv']

/-- **C34** `weighted_covariance` is `(1/W) Σ wᵢ (xᵢ - mean x)(yᵢ - mean y)`. -/
theorem C34_covariance (P Q : MeanProvider (K × K) K) (hP : P.WCorrect) (hQ : Q.WCorrect)
    (ps : List ((K × K) × K)) (hne : ps ≠ []) (h : Spec.NonzeroPrefixes Prod.snd ps) :
    weightedCovarianceRun P Q ps = .val (Spec.wcovariance ps) := by
  unfold weightedCovarianceRun
  rw [wcovariance_foldl P Q hP hQ ps h]
  simp [hne]

example : weightedCovarianceRun (lazyWMean (0 : ℚ)) (immWMean 0)
    [((1, 2), 1), ((3, 0), 3), ((5, 4), 1)] = .val (4 / 5) := by
  rw [C34_covariance _ _ lazyWMean_correct (immWMean_correct 0) _ (by simp)]
  · norm_num [Spec.wcovariance, Spec.wmean, Spec.wtotal]
  · intro n h0 hn
    simp at hn
    interval_cases n <;> norm_num

example : weightedVarianceRun (immWMean (0 : ℚ)) 0 [(1, 1), (4, 2)] = .val 2 := by
  rw [C33_immediate _ (immWMean_correct 0) _ (by simp)]
  · norm_num [Spec.wvariance, Spec.wcentralMoment, Spec.wmean, Spec.wtotal]
  · intro n h0 hn
    simp at hn
    interval_cases n <;> norm_num

/-! ## C35 (unit weights) -/

theorem unit_map (f : K → K) (xs : List K) :
    ((xs.map (fun x => (x, (1 : K)))).map (fun p => p.2 * f p.1)).sum = (xs.map f).sum := by
  simp [List.map_map, Function.comp_def]

theorem unit_wtotal (xs : List K) :
    Spec.wtotal (xs.map (fun x => (x, (1 : K)))) = (xs.length : K) := by
  simp [Spec.wtotal, List.map_map, Function.comp_def]

theorem unit_prefixes {X Y : Type*} (f : X → Y) (xs : List X) :
    Spec.NonzeroPrefixes (Prod.snd : Y × K → K) (xs.map (fun x => (f x, (1 : K)))) := by
  intro n h0 hn
  simp only [List.length_map] at hn
  simp only [← List.map_take, List.map_map, Function.comp_def, List.map_const', List.sum_replicate,
    nsmul_eq_mul, mul_one, List.length_take, Nat.min_eq_left hn]
  exact_mod_cast (by omega : n ≠ 0)

theorem unit_wmean (xs : List K) :
    Spec.wmean (xs.map (fun x => (x, (1 : K)))) = Spec.mean xs := by
  unfold Spec.wmean Spec.mean
  have := unit_map (fun x => x) xs
  rw [this, unit_wtotal, List.map_id']

theorem unit_wraw (k : ℕ) (xs : List K) :
    Spec.wrawMoment k (xs.map (fun x => (x, (1 : K)))) = Spec.rawMoment k xs := by
  unfold Spec.wrawMoment Spec.rawMoment
  rw [unit_map (fun x => x ^ k), unit_wtotal]

theorem unit_wcentral (k : ℕ) (xs : List K) :
    Spec.wcentralMoment k (xs.map (fun x => (x, (1 : K)))) = Spec.centralMoment k xs := by
  unfold Spec.wcentralMoment Spec.centralMoment
  rw [unit_wmean, unit_map (fun x => (x - Spec.mean xs) ^ k), unit_wtotal]

/-- **C35** Pushing every sample with weight 1: the weighted sums, means, moments, variances, kurtosis
equal the unweighted statistics of the same stream (for every stream, also an empty one for the sum
and the lazy mean). -/
theorem C35_sum_mean (x0 : K) (xs : List K) :
    weightedSumRun x0 (xs.map (fun x => (x, 1))) = sumRun (fun x => x) x0 xs ∧
    (lazyWMean x0).read ((lazyWMean x0).run (xs.map (fun x => (x, 1)))) =
      (lazyMean x0).read ((lazyMean x0).run xs) ∧
    (immWMean x0).read ((immWMean x0).run (xs.map (fun x => (x, 1)))) =
      (immMean x0).read ((immMean x0).run xs) := by
  refine ⟨?_, ?_, ?_⟩
  · rw [weightedSumRun_eq, sumRun_eq]
    simp [List.map_map, Function.comp_def]
  · rw [lazyWMean_run, lazyMean_run, unit_wtotal]
    simp [lazyWMean, lazyMean, List.map_map, Function.comp_def]
  · have hp : Spec.NonzeroPrefixes Prod.snd (xs.map (fun x => (x, (1 : K)))) := unit_prefixes id xs
    rw [immWMean_run _ _ hp, immMean_run]
    simp [immWMean, immMean, unit_wmean]

/-- **C35** Moments. -/
theorem C35_moment (N : ℕ) (x0 : K) (xs : List K) :
    weightedMomentRun N x0 (xs.map (fun x => (x, 1))) = momentRun N x0 xs := by
  unfold momentRun
  rw [weightedMomentRun_eq, momentRun_state, unit_map (fun x => x ^ N), unit_wtotal]
  rfl

/-- **C35** Variances, both variants, and kurtosis, over any correct mean providers. -/
theorem C35_variance (P : MeanProvider (K × K) K) (hP : P.WCorrect) (Q : MeanProvider K K)
    (hQ : Q.Correct) (xs : List K) (h : xs ≠ []) :
    weightedVarianceRun P 0 (xs.map (fun x => (x, 1))) = varianceRun Q 0 xs ∧
    lazyWeightedVarianceRun P (xs.map (fun x => (x, 1))) = lazyVarianceRun Q 0 xs ∧
    weightedKurtosisRun P (xs.map (fun x => (x, 1))) = kurtosisRun Q xs := by
  have hne : xs.map (fun x => (x, (1 : K))) ≠ [] := by simpa using h
  have hp : Spec.NonzeroPrefixes Prod.snd (xs.map (fun x => (x, (1 : K)))) := unit_prefixes id xs
  have hw : Spec.wvariance (xs.map (fun x => (x, (1 : K)))) = Spec.variance xs :=
    unit_wcentral 2 xs
  refine ⟨?_, ?_, ?_⟩
  · rw [C33_immediate P hP _ hne hp, C06_variance Q hQ xs h, hw]
  · rw [C33_lazy P hP _ hne hp, C06_lazy_variance Q hQ xs h, hw]
  · by_cases hv : Spec.variance xs = 0
    · rw [C34_kurtosis_degenerate P hP _ hne hp (by rw [hw, hv]),
        C07_kurtosis_degenerate Q hQ xs h hv]
    · rw [C34_kurtosis P hP _ hne hp (by rw [hw]; exact hv), C07_kurtosis Q hQ xs h hv,
        unit_wcentral, unit_wcentral]

/-- **C35** Covariance. -/
theorem C35_covariance (P P' : MeanProvider (K × K) K) (hP : P.WCorrect) (hP' : P'.WCorrect)
    (Q Q' : MeanProvider K K) (hQ : Q.Correct) (hQ' : Q'.Correct) (ps : List (K × K))
    (h : ps ≠ []) :
    weightedCovarianceRun P P' (ps.map (fun p => (p, 1))) = covarianceRun Q Q' 0 0 ps := by
  have hp : Spec.NonzeroPrefixes Prod.snd (ps.map (fun p => (p, (1 : K)))) := unit_prefixes id ps
  rw [C34_covariance P P' hP hP' _ (by simpa using h) hp,
    C08_covariance Q Q' hQ hQ' ps h]
  congr 1
  have e1 := unit_wmean (ps.map Prod.fst)
  have e2 := unit_wmean (ps.map Prod.snd)
  have e3 := unit_wtotal (ps.map Prod.fst)
  simp only [List.map_map, Function.comp_def, List.length_map] at e1 e2 e3
  simp only [Spec.wcovariance, Spec.covariance, List.map_map, Function.comp_def, one_mul, e1, e2, e3]

example : weightedVarianceRun (lazyWMean (0 : ℚ)) 0 ([1, 2, 6].map (fun x => (x, 1)))
    = varianceRun (immMean 0) 0 [1, 2, 6] :=
  (C35_variance _ lazyWMean_correct _ (immMean_correct 0) _ (by simp)).1

/-! ## C36 (multiplicities, common factor) -/

/-- The weighted stream of a stream with integer weights. -/
def Spec.withWeights {X : Type*} (ps : List (X × ℕ)) : List (X × K) :=
  ps.map (fun p => (p.1, (p.2 : K)))

theorem sum_expand {X : Type*} (f : X → K) (ps : List (X × ℕ)) :
    ((Spec.expand ps).map f).sum
      = ((Spec.withWeights (K := K) ps).map (fun p => p.2 * f p.1)).sum := by
  induction ps with
  | nil => rfl
  | cons p ps ih =>
    simp only [Spec.expand, Spec.withWeights, List.flatMap_cons, List.map_append, List.map_replicate,
      List.sum_append, List.sum_replicate, List.map_cons, List.sum_cons, nsmul_eq_mul] at ih ⊢
    rw [ih]

theorem length_expand {X : Type*} (ps : List (X × ℕ)) :
    ((Spec.expand ps).length : K) = ((Spec.withWeights (K := K) ps).map Prod.snd).sum := by
  induction ps with
  | nil => simp [Spec.expand, Spec.withWeights]
  | cons p ps ih =>
    simp only [Spec.expand, Spec.withWeights, List.flatMap_cons, List.length_append,
      List.length_replicate, List.map_cons, List.sum_cons] at ih ⊢
    push_cast
    rw [ih]

theorem withWeights_prefixes {X : Type*} {ps : List (X × ℕ)} (h : ∀ p ∈ ps, 0 < p.2) :
    Spec.NonzeroPrefixes (K := K) Prod.snd (Spec.withWeights ps) := by
  intro n h0 hn
  have e : (Spec.withWeights (K := K) ps).take n = Spec.withWeights (ps.take n) := by
    simp [Spec.withWeights, List.map_take]
  rw [e, ← length_expand]
  have hlen : n ≤ ps.length := by simpa [Spec.withWeights] using hn
  have hpos : 0 < (Spec.expand (ps.take n)).length := by
    cases ps with
    | nil => simp at hlen; omega
    | cons p ps =>
      cases n with
      | zero => omega
      | succ n =>
        simp only [List.take_succ_cons, Spec.expand, List.flatMap_cons, List.length_append,
          List.length_replicate]
        have := h p (by simp)
        omega
  exact_mod_cast hpos.ne'

theorem expand_ne {X : Type*} {ps : List (X × ℕ)} (h : ∀ p ∈ ps, 0 < p.2) (hne : ps ≠ []) :
    Spec.expand ps ≠ [] := by
  cases ps with
  | nil => exact absurd rfl hne
  | cons p ps =>
    have := h p (by simp)
    intro h0
    have := congrArg List.length h0
    simp [Spec.expand] at this
    omega

theorem mult_wmean (ps : List (K × ℕ)) :
    Spec.wmean (Spec.withWeights ps) = Spec.mean (Spec.expand ps) := by
  unfold Spec.wmean Spec.mean Spec.wtotal
  rw [← length_expand]
  have := sum_expand (fun x : K => x) ps
  rw [List.map_id''] at this
  · rw [this]
  · intro x; rfl

theorem mult_wcentral (k : ℕ) (ps : List (K × ℕ)) :
    Spec.wcentralMoment k (Spec.withWeights ps) = Spec.centralMoment k (Spec.expand ps) := by
  unfold Spec.wcentralMoment Spec.centralMoment
  rw [mult_wmean]
  unfold Spec.wtotal
  rw [← length_expand, ← sum_expand (fun x => (x - Spec.mean (Spec.expand ps)) ^ k)]

/-- **C36** Positive integer weights act as multiplicities: weighted mean, moment, variance (both
variants) and kurtosis equal the unweighted statistics of the stream in which each sample is
repeated as often as its weight says. -/
theorem C36_multiplicity (P : MeanProvider (K × K) K) (hP : P.WCorrect) (Q : MeanProvider K K)
    (hQ : Q.Correct) (ps : List (K × ℕ)) (hne : ps ≠ []) (hw : ∀ p ∈ ps, 0 < p.2) (N : ℕ) :
    P.read (P.run (Spec.withWeights ps)) = Q.read (Q.run (Spec.expand ps)) ∧
    weightedMomentRun N 0 (Spec.withWeights ps) = momentRun N 0 (Spec.expand ps) ∧
    weightedVarianceRun P 0 (Spec.withWeights ps) = varianceRun Q 0 (Spec.expand ps) ∧
    lazyWeightedVarianceRun P (Spec.withWeights ps) = lazyVarianceRun Q 0 (Spec.expand ps) ∧
    weightedKurtosisRun P (Spec.withWeights ps) = kurtosisRun Q (Spec.expand ps) := by
  have hne' : (Spec.withWeights (K := K) ps) ≠ [] := by simpa [Spec.withWeights] using hne
  have hp := withWeights_prefixes (K := K) hw
  have hx := expand_ne hw hne
  have hv : Spec.wvariance (Spec.withWeights ps) = Spec.variance (Spec.expand ps) :=
    mult_wcentral 2 ps
  refine ⟨?_, ?_, ?_, ?_, ?_⟩
  · rw [hP _ hne' hp, hQ _ hx, mult_wmean]
  · unfold momentRun
    rw [weightedMomentRun_eq, momentRun_state, sum_expand (fun x => x ^ N)]
    simp only [MomentSt.result, length_expand]
    rfl
  · rw [C33_immediate P hP _ hne' hp, C06_variance Q hQ _ hx, hv]
  · rw [C33_lazy P hP _ hne' hp, C06_lazy_variance Q hQ _ hx, hv]
  · by_cases h0 : Spec.variance (Spec.expand ps) = 0
    · rw [C34_kurtosis_degenerate P hP _ hne' hp (by rw [hv, h0]),
        C07_kurtosis_degenerate Q hQ _ hx h0]
    · rw [C34_kurtosis P hP _ hne' hp (by rw [hv]; exact h0), C07_kurtosis Q hQ _ hx h0,
        mult_wcentral, mult_wcentral]

/-- **C36** Covariance. -/
theorem C36_covariance (P P' : MeanProvider (K × K) K) (hP : P.WCorrect) (hP' : P'.WCorrect)
    (Q Q' : MeanProvider K K) (hQ : Q.Correct) (hQ' : Q'.Correct) (ps : List ((K × K) × ℕ))
    (hne : ps ≠ []) (hw : ∀ p ∈ ps, 0 < p.2) :
    weightedCovarianceRun P P' (Spec.withWeights ps) = covarianceRun Q Q' 0 0 (Spec.expand ps) := by
  have hx := expand_ne hw hne
  have hp := withWeights_prefixes (K := K) hw
  have hne' : (Spec.withWeights (K := K) ps) ≠ [] := by simpa [Spec.withWeights] using hne
  have hn := length_cast_ne (K := K) hx
  rw [C34_covariance P P' hP hP' _ hne' hp, C08_covariance Q Q' hQ hQ' _ hx]
  congr 1
  rw [wcovariance_eq (hp.total hne'), covariance_eq hx]
  simp only [Spec.mean, List.length_map]
  have e1 := sum_expand (fun p : K × K => p.1 * p.2) ps
  have e2 := sum_expand (fun p : K × K => p.1) ps
  have e3 := sum_expand (fun p : K × K => p.2) ps
  rw [← length_expand, ← e1, ← e2, ← e3]

example : varianceRun (lazyMean (0 : ℚ)) 0 [2, 5, 5, 5] =
    weightedVarianceRun (lazyWMean 0) 0 [(2, 1), (5, 3)] := by
  have := (C36_multiplicity (lazyWMean (0 : ℚ)) lazyWMean_correct (lazyMean 0) lazyMean_correct
    [(2, 1), (5, 3)] (by simp) (by simp) 2).2.2.1
  rw [show Spec.expand [((2 : ℚ), 1), (5, 3)] = [2, 5, 5, 5] from rfl] at this
  rw [← this]
  norm_num [Spec.withWeights]

theorem scale_sum (c : K) (f : K → K) (ps : List (K × K)) :
    ((ps.map (fun p => (p.1, c * p.2))).map (fun p => p.2 * f p.1)).sum
      = c * (ps.map (fun p => p.2 * f p.1)).sum := by
  induction ps with
  | nil => simp
  | cons p ps ih => simp only [List.map_cons, List.sum_cons] at ih ⊢; rw [ih]; ring

theorem scale_wtotal {X : Type*} (c : K) (ps : List (X × K)) :
    ((ps.map (fun p => (p.1, c * p.2))).map Prod.snd).sum = c * (ps.map Prod.snd).sum := by
  induction ps with
  | nil => simp
  | cons p ps ih => simp only [List.map_cons, List.sum_cons] at ih ⊢; rw [ih]; ring

theorem scale_prefixes {X : Type*} {c : K} (hc : c ≠ 0) {ps : List (X × K)}
    (h : Spec.NonzeroPrefixes Prod.snd ps) :
    Spec.NonzeroPrefixes Prod.snd (ps.map (fun p => (p.1, c * p.2))) := by
  intro n h0 hn
  rw [← List.map_take, scale_wtotal]
  exact mul_ne_zero hc (h n h0 (by simpa using hn))

theorem scale_wmean {c : K} (hc : c ≠ 0) (ps : List (K × K)) :
    Spec.wmean (ps.map (fun p => (p.1, c * p.2))) = Spec.wmean ps := by
  unfold Spec.wmean Spec.wtotal
  have := scale_sum c (fun x => x) ps
  rw [this, scale_wtotal, mul_div_mul_left _ _ hc]

theorem scale_wcentral {c : K} (hc : c ≠ 0) (k : ℕ) (ps : List (K × K)) :
    Spec.wcentralMoment k (ps.map (fun p => (p.1, c * p.2))) = Spec.wcentralMoment k ps := by
  unfold Spec.wcentralMoment
  rw [scale_wmean hc]
  unfold Spec.wtotal
  rw [scale_sum c (fun x => (x - Spec.wmean ps) ^ k), scale_wtotal, mul_div_mul_left _ _ hc]

/-- **C36** Multiplying all weights by a common non-zero factor changes none of mean, moment, variance
and kurtosis. -/
theorem C36_scale (P : MeanProvider (K × K) K) (hP : P.WCorrect) (ps : List (K × K)) (hne : ps ≠ [])
    (h : Spec.NonzeroPrefixes Prod.snd ps) (N : ℕ) {c : K} (hc : c ≠ 0) :
    P.read (P.run (ps.map (fun p => (p.1, c * p.2)))) = P.read (P.run ps) ∧
    weightedMomentRun N 0 (ps.map (fun p => (p.1, c * p.2))) = weightedMomentRun N 0 ps ∧
    weightedVarianceRun P 0 (ps.map (fun p => (p.1, c * p.2))) = weightedVarianceRun P 0 ps ∧
    lazyWeightedVarianceRun P (ps.map (fun p => (p.1, c * p.2))) = lazyWeightedVarianceRun P ps ∧
    weightedKurtosisRun P (ps.map (fun p => (p.1, c * p.2))) = weightedKurtosisRun P ps := by
  have h' := scale_prefixes hc h
  have hne' : ps.map (fun p => (p.1, c * p.2)) ≠ [] := by simpa using hne
  have hv : Spec.wvariance (ps.map (fun p => (p.1, c * p.2))) = Spec.wvariance ps :=
    scale_wcentral hc 2 ps
  refine ⟨?_, ?_, ?_, ?_, ?_⟩
  · rw [hP _ hne' h', hP _ hne h, scale_wmean hc]
  · rw [weightedMomentRun_eq, weightedMomentRun_eq, scale_sum c (fun x => x ^ N)]
    have hW : Spec.wtotal ps ≠ 0 := h.total hne
    have hW' : Spec.wtotal (ps.map (fun p => (p.1, c * p.2))) ≠ 0 := h'.total hne'
    rw [fdiv_ne hW, fdiv_ne hW']
    unfold Spec.wtotal
    rw [scale_wtotal, zero_add, zero_add, mul_div_mul_left _ _ hc]
  · rw [C33_immediate P hP _ hne' h', C33_immediate P hP _ hne h, hv]
  · rw [C33_lazy P hP _ hne' h', C33_lazy P hP _ hne h, hv]
  · by_cases h0 : Spec.wvariance ps = 0
    · rw [C34_kurtosis_degenerate P hP _ hne' h' (by rw [hv, h0]),
        C34_kurtosis_degenerate P hP _ hne h h0]
    · rw [C34_kurtosis P hP _ hne' h' (by rw [hv]; exact h0), C34_kurtosis P hP _ hne h h0,
        scale_wcentral hc, scale_wcentral hc]

/-- **C36** Covariance under a common factor. -/
theorem C36_covariance_scale (P Q : MeanProvider (K × K) K) (hP : P.WCorrect) (hQ : Q.WCorrect)
    (ps : List ((K × K) × K)) (hne : ps ≠ []) (h : Spec.NonzeroPrefixes Prod.snd ps) {c : K}
    (hc : c ≠ 0) :
    weightedCovarianceRun P Q (ps.map (fun p => (p.1, c * p.2))) = weightedCovarianceRun P Q ps := by
  have h' := scale_prefixes hc h
  have hne' : ps.map (fun p => (p.1, c * p.2)) ≠ [] := by simpa using hne
  rw [C34_covariance P Q hP hQ _ hne' h', C34_covariance P Q hP hQ _ hne h]
  congr 1
  rw [wcovariance_eq (h'.total hne'), wcovariance_eq (h.total hne)]
  have key : ∀ f : K × K → K, ((ps.map (fun p => (p.1, c * p.2))).map (fun p => p.2 * f p.1)).sum
      = c * (ps.map (fun p => p.2 * f p.1)).sum := by
    intro f
    induction ps with
    | nil => simp
    | cons p ps ih =>
      by_cases hps : ps = []
      · subst hps; simp; ring
      · clear ih
        simp only [List.map_map, Function.comp_def]
        rw [← List.sum_map_mul_left]
        congr 1
        apply List.map_congr_left
        intro q _
        ring
  rw [key (fun q => q.1 * q.2), key (fun q => q.1), key (fun q => q.2), scale_wtotal,
    mul_div_mul_left _ _ hc, mul_div_mul_left _ _ hc, mul_div_mul_left _ _ hc]

end field

section ordered
variable {K : Type u} [Field K] [LinearOrder K] [IsStrictOrderedRing K]

/-- Positive weights have non-zero partial sums. -/
theorem nonzeroPrefixes_of_pos {X : Type*} {w : X → K} {ps : List X} (h : ∀ p ∈ ps, 0 < w p) :
    Spec.NonzeroPrefixes w ps := by
  intro n h0 hn
  cases ps with
  | nil => simp at hn; omega
  | cons p ps =>
    cases n with
    | zero => omega
    | succ n =>
      simp only [List.take_succ_cons, List.map_cons, List.sum_cons]
      have h1 : 0 < w p := h p (by simp)
      have h2 : 0 ≤ ((ps.take n).map w).sum := by
        apply List.sum_nonneg
        intro x hx
        obtain ⟨q, hq, rfl⟩ := List.mem_map.mp hx
        exact (h q (by simp [List.mem_of_mem_take hq])).le
      exact (add_pos_of_pos_of_nonneg h1 h2).ne'

theorem wvariance_nonneg {ps : List (K × K)} (h : ∀ p ∈ ps, 0 < p.2) : 0 ≤ Spec.wvariance ps := by
  unfold Spec.wvariance Spec.wcentralMoment Spec.wtotal
  apply div_nonneg <;> apply List.sum_nonneg <;> intro x hx <;>
    obtain ⟨q, hq, rfl⟩ := List.mem_map.mp hx
  · exact mul_nonneg (h q hq).le (sq_nonneg _)
  · exact (h q hq).le

/-- **C33** With positive weights both variances are non-negative. -/
theorem C33_nonneg (P : MeanProvider (K × K) K) (hP : P.WCorrect) (ps : List (K × K))
    (hne : ps ≠ []) (h : ∀ p ∈ ps, 0 < p.2) :
    ∃ v, weightedVarianceRun P 0 ps = .val v ∧ lazyWeightedVarianceRun P ps = .val v ∧ 0 ≤ v :=
  ⟨Spec.wvariance ps, C33_immediate P hP ps hne (nonzeroPrefixes_of_pos h),
    C33_lazy P hP ps hne (nonzeroPrefixes_of_pos h), wvariance_nonneg h⟩

/-- **C32** With positive weights the weighted mean lies between any bounds of the samples. -/
theorem C32_bounds (P : MeanProvider (K × K) K) (hP : P.WCorrect) (ps : List (K × K))
    (hne : ps ≠ []) (h : ∀ p ∈ ps, 0 < p.2) {a b : K} (hab : ∀ p ∈ ps, a ≤ p.1 ∧ p.1 ≤ b) :
    ∃ m, P.read (P.run ps) = .val m ∧ a ≤ m ∧ m ≤ b := by
  refine ⟨_, hP ps hne (nonzeroPrefixes_of_pos h), ?_, ?_⟩
  all_goals
    have hW0 : Spec.wtotal ps ≠ 0 := (nonzeroPrefixes_of_pos h).total hne
    have hWn : 0 ≤ Spec.wtotal ps := by
      apply List.sum_nonneg
      intro x hx
      obtain ⟨q, hq, rfl⟩ := List.mem_map.mp hx
      exact (h q hq).le
    have hW : 0 < Spec.wtotal ps := lt_of_le_of_ne hWn (Ne.symm hW0)
    unfold Spec.wmean
  · rw [le_div_iff₀ hW]
    unfold Spec.wtotal
    rw [← List.sum_map_mul_left]
    apply List.sum_le_sum
    intro q hq
    rw [mul_comm]
    exact mul_le_mul_of_nonneg_left (hab q hq).1 (h q hq).le
  · rw [div_le_iff₀ hW]
    unfold Spec.wtotal
    rw [← List.sum_map_mul_left]
    apply List.sum_le_sum
    intro q hq
    rw [mul_comm]
    exact mul_le_mul_of_nonneg_right (hab q hq).2 (h q hq).le

end ordered

/-! ## Skewness -/

section real

/-- **C34** `weighted_skewness` is `m₃ / m₂^(3/2)` with weighted central moments (positive weights). -/
theorem C34_skewness (P : MeanProvider (ℝ × ℝ) ℝ) (hP : P.WCorrect) (ps : List (ℝ × ℝ))
    (hne : ps ≠ []) (h : ∀ p ∈ ps, 0 < p.2) (hv : Spec.wvariance ps ≠ 0) :
    weightedSkewnessRun P ps =
      .val (Spec.wcentralMoment 3 ps / (Spec.wcentralMoment 2 ps) ^ (3 / 2 : ℝ)) := by
  have hp := nonzeroPrefixes_of_pos (w := Prod.snd) h
  have hW : Spec.wtotal ps ≠ 0 := hp.total hne
  have hpos : 0 < Spec.wvariance ps := lt_of_le_of_ne (wvariance_nonneg h) (Ne.symm hv)
  unfold weightedSkewnessRun
  rw [C34_moment 2 ps hW, C34_moment 3 ps hW, hP ps hne hp]
  have e : Spec.wrawMoment 2 ps - Spec.wmean ps * Spec.wmean ps = Spec.wvariance ps := by
    rw [← wcentralTwo_eq hW]; rfl
  have hne' : Spec.wvariance ps * Real.sqrt (Spec.wvariance ps) ≠ 0 :=
    mul_ne_zero hv (Real.sqrt_ne_zero'.2 hpos)
  simp only [skewnessResult, Res.val_bind, e, not_lt.2 hpos.le, if_false]
  rw [fdiv_ne hne', wcentralThree_eq hW]
  congr 2
  change Spec.wvariance ps * √(Spec.wvariance ps) = (Spec.wvariance ps) ^ (3 / 2 : ℝ)
  rw [Real.sqrt_eq_rpow, show (3 / 2 : ℝ) = 1 + 1 / 2 by norm_num, Real.rpow_add hpos,
    Real.rpow_one]

/-- **C34** Zero variance: not a number. -/
theorem C34_skewness_degenerate (P : MeanProvider (ℝ × ℝ) ℝ) (hP : P.WCorrect)
    (ps : List (ℝ × ℝ)) (hne : ps ≠ []) (h : Spec.NonzeroPrefixes Prod.snd ps)
    (hv : Spec.wvariance ps = 0) : weightedSkewnessRun P ps = .nonfinite := by
  have hW : Spec.wtotal ps ≠ 0 := h.total hne
  unfold weightedSkewnessRun
  rw [C34_moment 2 ps hW, C34_moment 3 ps hW, hP ps hne h]
  have e : Spec.wrawMoment 2 ps - Spec.wmean ps * Spec.wmean ps = Spec.wvariance ps := by
    rw [← wcentralTwo_eq hW]; rfl
  simp [skewnessResult, e, hv]

/-- **C35** Unit weights give the unweighted skewness. -/
theorem C35_skewness (P : MeanProvider (ℝ × ℝ) ℝ) (hP : P.WCorrect) (Q : MeanProvider ℝ ℝ)
    (hQ : Q.Correct) (xs : List ℝ) (h : xs ≠ []) :
    weightedSkewnessRun P (xs.map (fun x => (x, 1))) = skewnessRun Q xs := by
  have hne : xs.map (fun x => (x, (1 : ℝ))) ≠ [] := by simpa using h
  have hw : Spec.wvariance (xs.map (fun x => (x, (1 : ℝ)))) = Spec.variance xs := unit_wcentral 2 xs
  by_cases hv : Spec.variance xs = 0
  · rw [C34_skewness_degenerate P hP _ hne (unit_prefixes id xs) (by rw [hw, hv]),
      C07_skewness_degenerate Q hQ xs h hv]
  · rw [C34_skewness P hP _ hne (by simp) (by rw [hw]; exact hv), C07_skewness Q hQ xs h hv,
      unit_wcentral, unit_wcentral]

/-- **C36** Integer weights act as multiplicities for the skewness. -/
theorem C36_skewness (P : MeanProvider (ℝ × ℝ) ℝ) (hP : P.WCorrect) (Q : MeanProvider ℝ ℝ)
    (hQ : Q.Correct) (ps : List (ℝ × ℕ)) (hne : ps ≠ []) (hw : ∀ p ∈ ps, 0 < p.2) :
    weightedSkewnessRun P (Spec.withWeights ps) = skewnessRun Q (Spec.expand ps) := by
  have hne' : (Spec.withWeights (K := ℝ) ps) ≠ [] := by simpa [Spec.withWeights] using hne
  have hp := withWeights_prefixes (K := ℝ) hw
  have hx := expand_ne hw hne
  have hv : Spec.wvariance (Spec.withWeights ps) = Spec.variance (Spec.expand ps) :=
    mult_wcentral 2 ps
  by_cases h0 : Spec.variance (Spec.expand ps) = 0
  · rw [C34_skewness_degenerate P hP _ hne' hp (by rw [hv, h0]),
      C07_skewness_degenerate Q hQ _ hx h0]
  · rw [C34_skewness P hP _ hne' ?_ (by rw [hv]; exact h0), C07_skewness Q hQ _ hx h0,
      mult_wcentral, mult_wcentral]
    intro p hp
    obtain ⟨q, hq, rfl⟩ := List.mem_map.mp hp
    exact Nat.cast_pos.2 (hw q hq)

/-- **C36** Skewness under a common positive factor of the weights. -/
theorem C36_skewness_scale (P : MeanProvider (ℝ × ℝ) ℝ) (hP : P.WCorrect) (ps : List (ℝ × ℝ))
    (hne : ps ≠ []) (h : ∀ p ∈ ps, 0 < p.2) {c : ℝ} (hc : 0 < c) :
    weightedSkewnessRun P (ps.map (fun p => (p.1, c * p.2))) = weightedSkewnessRun P ps := by
  have hp := nonzeroPrefixes_of_pos (w := Prod.snd) h
  have hne' : ps.map (fun p => (p.1, c * p.2)) ≠ [] := by simpa using hne
  have hv : Spec.wvariance (ps.map (fun p => (p.1, c * p.2))) = Spec.wvariance ps :=
    scale_wcentral hc.ne' 2 ps
  by_cases h0 : Spec.wvariance ps = 0
  · rw [C34_skewness_degenerate P hP _ hne' (scale_prefixes hc.ne' hp) (by rw [hv, h0]),
      C34_skewness_degenerate P hP _ hne hp h0]
  · rw [C34_skewness P hP _ hne' ?_ (by rw [hv]; exact h0), C34_skewness P hP _ hne h h0,
      scale_wcentral hc.ne', scale_wcentral hc.ne']
    intro p hp
    obtain ⟨q, hq, rfl⟩ := List.mem_map.mp hp
    exact mul_pos hc (h q hq)

example : ∃ s, weightedSkewnessRun (lazyWMean 0) [((1 : ℝ), 1), (4, 2)] = .val s := by
  refine ⟨_, C34_skewness _ lazyWMean_correct _ (by simp) (by simp) ?_⟩
  norm_num [Spec.wvariance, Spec.wcentralMoment, Spec.wmean, Spec.wtotal]

end real

end Acc
