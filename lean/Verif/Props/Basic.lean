import Verif.Proofs.Basic
import Verif.Model.History

/-!
# Properties C01–C11: basic statistics
-/

set_option linter.unusedSectionVars false

namespace Acc

universe u v

/-! ## C01 count -/

/-- The set `{count}` as a user sees it: samples of any type, extraction returns the counter. -/
def countMachine (w : ℕ) (X : Type) : Machine X Unit ℕ where
  St := BitVec w
  init := countInit w
  push s _ := countStep s
  query s _ := (s, countResult s)

/-- **C01.** After any history of pushes and extractions, `count(acc)` is the number of pushes
(modulo `2^w` for a `w`-bit `size_t`). -/
theorem C01_count (w : ℕ) (X : Type) (h : List (Op X Unit)) :
    (countMachine w X).answer h () = (pushes h).length % 2 ^ w := by
  have key : ∀ (h : List (Op X Unit)) (c : BitVec w),
      ((countMachine w X).exec c h).toNat = (c.toNat + (pushes h).length) % 2 ^ w := by
    intro h
    induction h with
    | nil =>
      intro c
      have e : (countMachine w X).exec c [] = c := rfl
      rw [e]; simp [pushes, Nat.mod_eq_of_lt c.isLt]
    | cons o h ih =>
      intro c
      cases o with
      | push x =>
        have h1 := ih (countStep c)
        have h2 : (countStep c).toNat = (c.toNat + 1) % 2 ^ w := by
          simp [countStep, BitVec.toNat_add]
        have e : (countMachine w X).exec c (Op.push x :: h)
            = (countMachine w X).exec (countStep c) h := rfl
        rw [e, h1, h2]
        simp only [pushes, List.length_cons, Nat.mod_add_mod]
        congr 1; omega
      | query q => exact ih c
  simpa [Machine.answer, countMachine, countResult, countInit] using key h (countInit w)

example : (countMachine 64 ℚ).answer [.push 3, .query (), .push 5, .push 3] () = 3 := by
  rw [C01_count]; rfl
example : (countMachine 1 ℚ).answer [.push 3, .push 5, .push 3] () = 1 := by
  rw [C01_count]; rfl

/-! ## C02 sum -/

/-- **C02.** `sum`, `sum_of_weights`, `sum_of_variates`: initial value plus the sum of all values
pushed under the tag. -/
theorem C02_sum {A : Type v} {M : Type u} [AddCommMonoid M] (tag : A → M) (x0 : M)
    (args : List A) : sumRun tag x0 args = x0 + (args.map tag).sum :=
  sumRun_eq tag x0 args

example : sumRun (fun p : ℚ × ℚ => p.2) 10 [(1, 2), (3, 4)] = 16 := by
  rw [C02_sum]; norm_num

/-! ## C03 Kahan summation -/

/-- **C03.** In exact arithmetic the compensation is always zero and Kahan summation returns what
plain summation returns. -/
theorem C03_kahan {A : Type v} {M : Type u} [AddCommGroup M] (tag : A → M) (x0 : M)
    (args : List A) :
    (kahanRun tag x0 args).sum = x0 + (args.map tag).sum
      ∧ (kahanRun tag x0 args).sum = sumRun tag x0 args
      ∧ (kahanRun tag x0 args).compensation = 0 := by
  rw [kahanRun_eq, sumRun_eq]; simp

example : (kahanRun (fun x : ℤ => x) 1 [2, 3]).sum = 6 := by rw [(C03_kahan _ _ _).1]; rfl

/-! ## C57 Kahan summation with rounding -/

/-- **C57.** Whatever the addition of the number type returns (it is an arbitrary function `add` here, e.g. a
rounded or a saturating sum), as long as subtractions are exact the sum corrected by the compensation is the exact
total after every prefix: nothing an addition loses is forgotten. -/
theorem C57_kahan_rounding {A : Type v} {M : Type u} [AddCommGroup M] (add : M → M → M) (tag : A → M)
    (x0 : M) (args : List A) :
    let s := @kahanRun A M ⟨add⟩ _ _ tag x0 args
    s.sum - s.compensation = x0 + (args.map tag).sum := by
  intro s
  have key : ∀ (args : List A) (k : Kahan M),
      (args.foldl (fun s a => @Kahan.step M ⟨add⟩ _ s (tag a)) k).sum
        - (args.foldl (fun s a => @Kahan.step M ⟨add⟩ _ s (tag a)) k).compensation
      = k.sum - k.compensation + (args.map tag).sum := by
    intro args
    induction args with
    | nil => intro k; simp
    | cons a as ih =>
      intro k
      rw [List.foldl_cons, ih, List.map_cons, List.sum_cons]
      have h : ∀ t : M, t - (t - k.sum - (tag a - k.compensation)) = k.sum - k.compensation + tag a := by
        intro t; abel
      simp only [Kahan.step]
      rw [h, add_assoc]
  have := key args (Kahan.init x0)
  simpa [s, kahanRun, Kahan.init] using this

/-- Integers with an addition that rounds down to a multiple of 4: the plain sum of `1 + 2 + 2 + 2 + 2` is stuck at
0; the Kahan sum is 8 with compensation -1. -/
example : (@kahanRun ℤ ℤ ⟨fun a b => (a + b) / 4 * 4⟩ _ _ (fun x => x) 1 [2, 2, 2, 2]).sum = 8 ∧
    (@kahanRun ℤ ℤ ⟨fun a b => (a + b) / 4 * 4⟩ _ _ (fun x => x) 1 [2, 2, 2, 2]).compensation = -1 ∧
    @sumRun ℤ ℤ ⟨fun a b => (a + b) / 4 * 4⟩ (fun x => x) 1 [2, 2, 2, 2] = 0 := by decide +kernel

section field
variable {K : Type u} [Field K] [CharZero K] [DecidableEq K]

/-! ## C04 mean -/

/-- **C04.** Lazy mean (with default initial value) of a non-empty stream. -/
theorem C04_lazy_mean (xs : List K) (h : xs ≠ []) :
    (lazyMean 0).read ((lazyMean 0).run xs) = .val (xs.sum / (xs.length : K)) :=
  lazyMean_correct xs h

/-- **C04.** Immediate mean of a non-empty stream, for every initial value. -/
theorem C04_immediate_mean (x0 : K) (xs : List K) (h : xs ≠ []) :
    (immMean x0).read ((immMean x0).run xs) = .val (xs.sum / (xs.length : K)) :=
  immMean_correct x0 xs h

/-- **C04.** The two variants agree after every non-empty stream. -/
theorem C04_agree (xs : List K) (h : xs ≠ []) :
    (lazyMean 0).read ((lazyMean 0).run xs) = (immMean 0).read ((immMean 0).run xs) := by
  rw [C04_lazy_mean xs h, C04_immediate_mean 0 xs h]

/-- **C04.** With no samples the lazy mean is not a number. -/
theorem C04_lazy_mean_empty (x0 : K) :
    (lazyMean x0).read ((lazyMean x0).run []) = .nonfinite := by
  simp [lazyMean, MeanProvider.run]

/-- The empty-stream part of C04 is false for the immediate variant: it returns the initial value
(0 by default), not a NaN. -/
theorem C04_immediate_mean_empty_finite :
    (immMean (0 : ℚ)).read ((immMean 0).run []) = .val 0 := by
  simp [immMean, MeanProvider.run]

/-- With a non-zero initial `sample` argument the two variants disagree: the lazy mean is shifted
by `x0/n`. -/
theorem C04_lazy_mean_initial (x0 : K) (xs : List K) (h : xs ≠ []) :
    (lazyMean x0).read ((lazyMean x0).run xs) = .val ((x0 + xs.sum) / (xs.length : K)) := by
  rw [lazyMean_run]
  simp [lazyMean, fdiv, length_cast_ne (K := K) h]

example : (lazyMean (0 : ℚ)).read ((lazyMean 0).run [1, 2, 6]) = .val 3 := by
  rw [C04_lazy_mean _ (by simp)]; norm_num
example : (immMean (7 : ℚ)).read ((immMean 7).run [1, 2, 6]) = .val 3 := by
  rw [C04_immediate_mean _ _ (by simp)]; norm_num

/-! ## C05 moment -/

/-- **C05.** The repeated-squaring power of the library is the mathematical power. -/
theorem C05_pow (x : K) (n : ℕ) (_ : 0 < n) : mpow x n = x ^ n := mpow_eq x n

/-- **C05.** `moment<N>` of a non-empty stream. -/
theorem C05_moment (N : ℕ) (_ : 0 < N) (xs : List K) (h : xs ≠ []) :
    momentRun N 0 xs = .val ((xs.map (fun x => x ^ N)).sum / (xs.length : K)) := by
  unfold momentRun
  rw [momentRun_state]
  simp [MomentSt.result, fdiv, length_cast_ne (K := K) h]

/-- **C05.** With no samples the moment is not a number. -/
theorem C05_moment_empty (N : ℕ) (x0 : K) : momentRun N x0 [] = .nonfinite := by
  simp [momentRun, MomentSt.init, MomentSt.result]

example : momentRun 3 (0 : ℚ) [1, 2] = .val (9 / 2) := by
  rw [C05_moment 3 (by norm_num) _ (by simp)]; norm_num

theorem momentRun_raw (N : ℕ) (xs : List K) (h : xs ≠ []) :
    momentRun N 0 xs = .val (Spec.rawMoment N xs) := by
  unfold momentRun
  rw [momentRun_state]
  simp [MomentSt.result, fdiv, length_cast_ne (K := K) h, Spec.rawMoment]

/-! ## C06 variance -/

/-- **C06.** Lazy variance over any correct mean provider (lazy or immediate mean). -/
theorem C06_lazy_variance (P : MeanProvider K K) (hP : P.Correct) (xs : List K) (h : xs ≠ []) :
    lazyVarianceRun P 0 xs = .val (Spec.variance xs) := by
  unfold lazyVarianceRun
  rw [momentRun_raw 2 xs h, hP xs h]
  simp [lazyVarianceResult, Spec.variance, centralTwo_eq h]

/-- **C06.** Recursive variance over any correct mean provider (lazy or immediate mean). -/
theorem C06_variance (P : MeanProvider K K) (hP : P.Correct) (xs : List K) (h : xs ≠ []) :
    varianceRun P 0 xs = .val (Spec.variance xs) := by
  unfold varianceRun
  rw [variance_foldl P hP]
  simp [h]

/-- **C06.** All four combinations (lazy or recursive variance, lazy or immediate mean) agree. -/
theorem C06_agree (xs : List K) (h : xs ≠ []) :
    varianceRun (immMean 0) 0 xs = .val (Spec.variance xs)
      ∧ varianceRun (lazyMean 0) 0 xs = .val (Spec.variance xs)
      ∧ lazyVarianceRun (lazyMean 0) 0 xs = .val (Spec.variance xs)
      ∧ lazyVarianceRun (immMean 0) 0 xs = .val (Spec.variance xs) :=
  ⟨C06_variance _ (immMean_correct 0) xs h, C06_variance _ lazyMean_correct xs h,
    C06_lazy_variance _ lazyMean_correct xs h, C06_lazy_variance _ (immMean_correct 0) xs h⟩

/-- A non-zero initial `sample` argument stays visible in the recursive variance for ever. -/
theorem C06_variance_initial (P : MeanProvider K K) (hP : P.Correct) (x0 : K) (xs : List K)
    (h : xs ≠ []) : varianceRun P x0 xs = .val (Spec.variance xs + x0 / (xs.length : K)) := by
  unfold varianceRun
  rw [variance_foldl P hP]
  simp [h]

example : varianceRun (immMean (0 : ℚ)) 0 [1, 2, 6] = .val (14 / 3) := by
  rw [C06_variance _ (immMean_correct 0) _ (by simp)]
  norm_num [Spec.variance, Spec.centralMoment, Spec.mean]

/-! ## C08 covariance -/

/-- **C08.** Covariance over any correct providers of the two means. -/
theorem C08_covariance (P Q : MeanProvider K K) (hP : P.Correct) (hQ : Q.Correct)
    (ps : List (K × K)) (h : ps ≠ []) :
    covarianceRun P Q 0 0 ps = .val (Spec.covariance ps) := by
  unfold covarianceRun
  rw [covariance_foldl P Q hP hQ]
  simp [h]

/-- **C08.** Symmetry: swapping sample and covariate does not change the covariance. -/
theorem C08_symmetric (P Q : MeanProvider K K) (hP : P.Correct) (hQ : Q.Correct)
    (ps : List (K × K)) (h : ps ≠ []) :
    covarianceRun P Q 0 0 (ps.map Prod.swap) = covarianceRun P Q 0 0 ps := by
  rw [C08_covariance P Q hP hQ ps h, C08_covariance P Q hP hQ _ (by simpa using h)]
  simp [Spec.covariance, List.map_map, Function.comp_def, mul_comm]

/-- **C08.** With the sample itself as covariate the covariance is the variance. -/
theorem C08_self (P Q R : MeanProvider K K) (hP : P.Correct) (hQ : Q.Correct) (hR : R.Correct)
    (xs : List K) (h : xs ≠ []) :
    covarianceRun P Q 0 0 (xs.map (fun x => (x, x))) = varianceRun R 0 xs := by
  rw [C08_covariance P Q hP hQ _ (by simpa using h), C06_variance R hR xs h]
  simp [Spec.covariance, Spec.variance, Spec.centralMoment, List.map_map, Function.comp_def, sq]

example : covarianceRun (lazyMean (0 : ℚ)) (immMean 0) 0 0 [(1, 2), (2, 4), (6, 0)]
    = .val (-8 / 3) := by
  rw [C08_covariance _ _ lazyMean_correct (immMean_correct 0) _ (by simp)]
  norm_num [Spec.covariance, Spec.mean]

/-! ## C07 kurtosis (any field) -/

/-- **C07.** Kurtosis of a stream with non-zero variance. -/
theorem C07_kurtosis (P : MeanProvider K K) (hP : P.Correct) (xs : List K) (h : xs ≠ [])
    (hv : Spec.variance xs ≠ 0) :
    kurtosisRun P xs
      = .val (Spec.centralMoment 4 xs / (Spec.centralMoment 2 xs) ^ 2 - 3) := by
  unfold kurtosisRun
  rw [momentRun_raw 2 xs h, momentRun_raw 3 xs h, momentRun_raw 4 xs h, hP xs h]
  have hv' : Spec.rawMoment 2 xs - Spec.mean xs * Spec.mean xs ≠ 0 := by
    rw [← centralTwo_eq h]; exact hv
  simp only [kurtosisResult, Res.val_bind]
  rw [fdiv_ne (mul_ne_zero hv' hv')]
  simp [centralTwo_eq h, centralFour_eq h, sq]

/-- **C07.** With zero variance the kurtosis is not a number. -/
theorem C07_kurtosis_degenerate (P : MeanProvider K K) (hP : P.Correct) (xs : List K)
    (h : xs ≠ []) (hv : Spec.variance xs = 0) : kurtosisRun P xs = .nonfinite := by
  unfold kurtosisRun
  rw [momentRun_raw 2 xs h, momentRun_raw 3 xs h, momentRun_raw 4 xs h, hP xs h]
  have hv' : Spec.rawMoment 2 xs - Spec.mean xs * Spec.mean xs = 0 := by
    rw [← centralTwo_eq h]; exact hv
  simp [kurtosisResult, hv']

example : kurtosisRun (lazyMean (0 : ℚ)) [0, 1, 2] = .val (-3 / 2) := by
  have hv : Spec.variance ([0, 1, 2] : List ℚ) ≠ 0 := by
    norm_num [Spec.variance, Spec.centralMoment, Spec.mean]
  rw [C07_kurtosis _ lazyMean_correct _ (by simp) hv]
  norm_num [Spec.centralMoment, Spec.mean]

/-! ### Effect of shifting and scaling the samples -/

theorem mean_affine (a b : K) (xs : List K) (h : xs ≠ []) :
    Spec.mean (xs.map (fun x => a * x + b)) = a * Spec.mean xs + b := by
  have hn := length_cast_ne (K := K) h
  have : (xs.map (fun x => a * x + b)).sum = a * xs.sum + (xs.length : K) * b := by
    clear h hn
    induction xs with
    | nil => simp
    | cons x xs ih =>
      simp only [List.map_cons, List.sum_cons, List.length_cons, ih]; push_cast; ring
  simp only [Spec.mean, List.length_map, this]
  field_simp

theorem centralMoment_affine (k : ℕ) (a b : K) (xs : List K) (h : xs ≠ []) :
    Spec.centralMoment k (xs.map (fun x => a * x + b)) = a ^ k * Spec.centralMoment k xs := by
  unfold Spec.centralMoment
  rw [mean_affine a b xs h, List.map_map, List.length_map]
  have : ∀ ys : List K, (ys.map ((fun x => (x - (a * Spec.mean xs + b)) ^ k)
      ∘ fun x => a * x + b)).sum
      = a ^ k * (ys.map (fun x => (x - Spec.mean xs) ^ k)).sum := by
    intro ys
    induction ys with
    | nil => simp
    | cons y ys ih =>
      simp only [List.map_cons, List.sum_cons, ih, Function.comp_apply, mul_add, ← mul_pow]
      congr 2; ring
  rw [this, mul_div_assoc]

/-- **C06.** Shifting all samples by `b` leaves the variance unchanged, scaling them by `a`
multiplies it by `a²`; both implementations, both mean providers. -/
theorem C06_affine (P : MeanProvider K K) (hP : P.Correct) (a b : K) (xs : List K) (h : xs ≠ []) :
    varianceRun P 0 (xs.map (fun x => a * x + b)) = .val (a ^ 2 * Spec.variance xs)
      ∧ lazyVarianceRun P 0 (xs.map (fun x => a * x + b)) = .val (a ^ 2 * Spec.variance xs) := by
  rw [C06_variance P hP _ (by simpa using h), C06_lazy_variance P hP _ (by simpa using h)]
  simp [Spec.variance, centralMoment_affine 2 a b xs h]

/-- **C07.** Kurtosis is invariant under shifting and non-zero scaling. -/
theorem C07_kurtosis_affine (P : MeanProvider K K) (hP : P.Correct) (a b : K) (ha : a ≠ 0)
    (xs : List K) (h : xs ≠ []) (hv : Spec.variance xs ≠ 0) :
    kurtosisRun P (xs.map (fun x => a * x + b)) = kurtosisRun P xs := by
  have hv' : Spec.variance (xs.map (fun x => a * x + b)) ≠ 0 := by
    rw [Spec.variance, centralMoment_affine 2 a b xs h]
    exact mul_ne_zero (pow_ne_zero 2 ha) hv
  rw [C07_kurtosis P hP _ (by simpa using h) hv', C07_kurtosis P hP xs h hv,
    centralMoment_affine 4 a b xs h, centralMoment_affine 2 a b xs h]
  have : Spec.centralMoment 2 xs ≠ 0 := hv
  congr 1
  field_simp

end field

section ordered
variable {K : Type u} [Field K] [LinearOrder K] [IsStrictOrderedRing K]

theorem list_sum_sq_nonneg (xs : List K) (f : K → K) : 0 ≤ (xs.map (fun x => (f x) ^ 2)).sum :=
  List.sum_nonneg (by
    intro y hy
    obtain ⟨x, _, rfl⟩ := List.mem_map.1 hy
    exact sq_nonneg _)

/-- **C06.** The variance reported by either implementation is never negative. -/
theorem C06_nonneg (P : MeanProvider K K) (hP : P.Correct) (xs : List K) (h : xs ≠ []) :
    ∃ v : K, varianceRun P 0 xs = .val v ∧ lazyVarianceRun P 0 xs = .val v ∧ 0 ≤ v :=
  ⟨Spec.variance xs, C06_variance P hP xs h, C06_lazy_variance P hP xs h,
    div_nonneg (list_sum_sq_nonneg xs _) (by positivity)⟩

theorem list_sum_sq_eq_zero (xs : List K) (f : K → K)
    (h : (xs.map (fun x => (f x) ^ 2)).sum = 0) : ∀ x ∈ xs, f x = 0 := by
  induction xs with
  | nil => simp
  | cons x xs ih =>
    simp only [List.map_cons, List.sum_cons] at h
    have h1 := sq_nonneg (f x)
    have h2 := list_sum_sq_nonneg xs f
    have h3 : (f x) ^ 2 = 0 := by linarith
    have h4 : (xs.map (fun x => (f x) ^ 2)).sum = 0 := by linarith
    intro y hy
    rcases List.mem_cons.1 hy with rfl | hy
    · exact pow_eq_zero_iff (two_ne_zero) |>.1 h3
    · exact ih h4 y hy

/-- **C06.** The reported variance is zero exactly when all samples are equal. -/
theorem C06_zero_iff (P : MeanProvider K K) (hP : P.Correct) (xs : List K) (h : xs ≠ []) :
    varianceRun P 0 xs = .val 0 ↔ ∃ c, ∀ x ∈ xs, x = c := by
  rw [C06_variance P hP xs h]
  have hn := length_cast_ne (K := K) h
  simp only [Res.val.injEq]
  constructor
  · intro hv
    refine ⟨Spec.mean xs, fun x hx => ?_⟩
    have h0 : (xs.map (fun x => (x - Spec.mean xs) ^ 2)).sum = 0 := by
      have := hv
      unfold Spec.variance Spec.centralMoment at this
      rcases div_eq_zero_iff.1 this with h | h
      · exact h
      · exact absurd h hn
    exact sub_eq_zero.1 (list_sum_sq_eq_zero xs _ h0 x hx)
  · rintro ⟨c, hc⟩
    have hx : xs = List.replicate xs.length c := List.eq_replicate_of_mem hc
    have hm : Spec.mean xs = c := by
      rw [hx]; simp [Spec.mean]; field_simp
    unfold Spec.variance Spec.centralMoment
    rw [hm, hx]
    simp

example : varianceRun (immMean (0 : ℚ)) 0 [4, 4, 4] = .val 0 :=
  (C06_zero_iff _ (immMean_correct 0) _ (by simp)).2 ⟨4, by simp⟩

end ordered

/-! ## C07 skewness (reals) -/

theorem variance_nonneg (xs : List ℝ) : 0 ≤ Spec.variance xs :=
  div_nonneg (list_sum_sq_nonneg xs _) (by positivity)

/-- **C07.** Skewness of a stream with non-zero variance is `m₃ / m₂^(3/2)`. -/
theorem C07_skewness (P : MeanProvider ℝ ℝ) (hP : P.Correct) (xs : List ℝ) (h : xs ≠ [])
    (hv : Spec.variance xs ≠ 0) :
    skewnessRun P xs
      = .val (Spec.centralMoment 3 xs / (Spec.centralMoment 2 xs) ^ (3 / 2 : ℝ)) := by
  have hpos : 0 < Spec.variance xs := lt_of_le_of_ne (variance_nonneg xs) (Ne.symm hv)
  unfold skewnessRun
  rw [momentRun_raw 2 xs h, momentRun_raw 3 xs h, hP xs h]
  have e : Spec.rawMoment 2 xs - Spec.mean xs * Spec.mean xs = Spec.variance xs := by
    rw [← centralTwo_eq h]; rfl
  have hne : Spec.variance xs * Real.sqrt (Spec.variance xs) ≠ 0 :=
    mul_ne_zero hv (Real.sqrt_ne_zero'.2 hpos)
  simp only [skewnessResult, Res.val_bind, e, not_lt.2 hpos.le, if_false]
  rw [fdiv_ne hne, centralThree_eq h]
  have e2 : (Spec.centralMoment 2 xs) ^ (3 / 2 : ℝ)
      = Spec.variance xs * Real.sqrt (Spec.variance xs) := by
    have : (3 / 2 : ℝ) = 1 + 1 / 2 := by norm_num
    change (Spec.variance xs) ^ (3 / 2 : ℝ) = _
    rw [Real.sqrt_eq_rpow, this, Real.rpow_add hpos, Real.rpow_one]
  rw [e2]

/-- **C07.** With zero variance the skewness is not a number. -/
theorem C07_skewness_degenerate (P : MeanProvider ℝ ℝ) (hP : P.Correct) (xs : List ℝ)
    (h : xs ≠ []) (hv : Spec.variance xs = 0) : skewnessRun P xs = .nonfinite := by
  unfold skewnessRun
  rw [momentRun_raw 2 xs h, momentRun_raw 3 xs h, hP xs h]
  have e : Spec.rawMoment 2 xs - Spec.mean xs * Spec.mean xs = Spec.variance xs := by
    rw [← centralTwo_eq h]; rfl
  simp [skewnessResult, e, hv]

/-- **C07.** Skewness is invariant under shifting and positive scaling. -/
theorem C07_skewness_affine (P : MeanProvider ℝ ℝ) (hP : P.Correct) (a b : ℝ) (ha : 0 < a)
    (xs : List ℝ) (h : xs ≠ []) (hv : Spec.variance xs ≠ 0) :
    skewnessRun P (xs.map (fun x => a * x + b)) = skewnessRun P xs := by
  have hv' : Spec.variance (xs.map (fun x => a * x + b)) ≠ 0 := by
    rw [Spec.variance, centralMoment_affine 2 a b xs h]
    exact mul_ne_zero (pow_ne_zero 2 ha.ne') hv
  have h2 : 0 ≤ Spec.centralMoment 2 xs := variance_nonneg xs
  rw [C07_skewness P hP _ (by simpa using h) hv', C07_skewness P hP xs h hv,
    centralMoment_affine 3 a b xs h, centralMoment_affine 2 a b xs h,
    Real.mul_rpow (by positivity) h2]
  have : (a ^ 2) ^ (3 / 2 : ℝ) = a ^ 3 := by
    rw [← Real.rpow_natCast a 2, ← Real.rpow_mul ha.le, ← Real.rpow_natCast a 3]
    norm_num
  rw [this]
  congr 1
  rw [mul_div_mul_left _ _ (by positivity)]

/-- **C07.** Skewness changes sign when all samples are negated. -/
theorem C07_skewness_odd (P : MeanProvider ℝ ℝ) (hP : P.Correct)
    (xs : List ℝ) (h : xs ≠ []) (hv : Spec.variance xs ≠ 0) :
    ∃ s, skewnessRun P xs = .val s ∧ skewnessRun P (xs.map (fun x => -x)) = .val (-s) := by
  have e : xs.map (fun x => -x) = xs.map (fun x => (-1) * x + 0) := by simp
  have hv' : Spec.variance (xs.map (fun x => (-1) * x + 0)) ≠ 0 := by
    rw [Spec.variance, centralMoment_affine 2 (-1) 0 xs h]
    exact mul_ne_zero (by norm_num) hv
  refine ⟨_, C07_skewness P hP xs h hv, ?_⟩
  rw [e, C07_skewness P hP _ (by simpa using h) hv', centralMoment_affine 3 (-1) 0 xs h,
    centralMoment_affine 2 (-1) 0 xs h]
  norm_num
  rw [neg_div]

/-- **C07.** Pearson's inequality between the reported kurtosis and skewness. -/
theorem C07_pearson (P : MeanProvider ℝ ℝ) (hP : P.Correct)
    (xs : List ℝ) (h : xs ≠ []) (hv : Spec.variance xs ≠ 0) :
    ∃ s k, skewnessRun P xs = .val s ∧ kurtosisRun P xs = .val k ∧ s ^ 2 - 2 ≤ k := by
  refine ⟨_, _, C07_skewness P hP xs h hv, C07_kurtosis P hP xs h hv, ?_⟩
  have hpos : 0 < Spec.centralMoment 2 xs := lt_of_le_of_ne (variance_nonneg xs) (Ne.symm hv)
  have hn : (0 : ℝ) < xs.length := by
    have := List.length_pos_iff.mpr h; exact_mod_cast this
  set m2 := Spec.centralMoment 2 xs with hm2
  set m3 := Spec.centralMoment 3 xs with hm3
  set m4 := Spec.centralMoment 4 xs with hm4
  set μ := Spec.mean xs with hμ
  -- first central moment vanishes
  have h1 : (xs.map (fun x => x - μ)).sum = 0 := by
    have : (xs.map (fun x => x - μ)).sum = xs.sum - xs.length * μ := by
      clear_value μ
      clear * -
      induction xs with
      | nil => simp
      | cons x xs ih =>
        simp only [List.map_cons, List.sum_cons, List.length_cons, ih]; push_cast; ring
    rw [this, hμ, mul_comm, mean_mul_length h]; ring
  have key : ∀ t : ℝ, 0 ≤ m4 - m2 ^ 2 - 2 * t * m3 + t ^ 2 * m2 := by
    intro t
    have hs := list_sum_sq_nonneg xs (fun x => (x - μ) ^ 2 - m2 - t * (x - μ))
    have e : (xs.map (fun x => ((x - μ) ^ 2 - m2 - t * (x - μ)) ^ 2)).sum
        = (xs.map (fun x => (x - μ) ^ 4)).sum - 2 * t * (xs.map (fun x => (x - μ) ^ 3)).sum
          + (t ^ 2 - 2 * m2) * (xs.map (fun x => (x - μ) ^ 2)).sum
          + 2 * t * m2 * (xs.map (fun x => x - μ)).sum + xs.length * m2 ^ 2 := by
      clear_value μ m2 m3 m4
      clear * -
      induction xs with
      | nil => simp
      | cons x xs ih =>
        simp only [List.map_cons, List.sum_cons, List.length_cons, ih]; push_cast; ring
    rw [e, h1] at hs
    have e2 : (xs.map (fun x => (x - μ) ^ 2)).sum = m2 * xs.length := by
      rw [hm2, Spec.centralMoment, div_mul_cancel₀ _ hn.ne']
    have e3 : (xs.map (fun x => (x - μ) ^ 3)).sum = m3 * xs.length := by
      rw [hm3, Spec.centralMoment, div_mul_cancel₀ _ hn.ne']
    have e4 : (xs.map (fun x => (x - μ) ^ 4)).sum = m4 * xs.length := by
      rw [hm4, Spec.centralMoment, div_mul_cancel₀ _ hn.ne']
    rw [e2, e3, e4] at hs
    by_contra hneg
    push Not at hneg
    nlinarith
  have hk := key (m3 / m2)
  have e1 : (m3 / m2 ^ (3 / 2 : ℝ)) ^ 2 = m3 ^ 2 / m2 ^ 3 := by
    rw [div_pow, ← Real.rpow_natCast (m2 ^ (3 / 2 : ℝ)) 2, ← Real.rpow_mul hpos.le,
      ← Real.rpow_natCast m2 3]
    norm_num
  rw [e1]
  have : m4 / m2 ^ 2 - 3 - (m3 ^ 2 / m2 ^ 3 - 2)
      = (m4 - m2 ^ 2 - 2 * (m3 / m2) * m3 + (m3 / m2) ^ 2 * m2) / m2 ^ 2 := by
    field_simp; ring
  have h5 : 0 ≤ m4 / m2 ^ 2 - 3 - (m3 ^ 2 / m2 ^ 3 - 2) := by
    rw [this]; exact div_nonneg hk (by positivity)
  linarith

example : skewnessRun (lazyMean 0) [0, 1, 2] = .val 0 := by
  have hv : Spec.variance ([0, 1, 2] : List ℝ) ≠ 0 := by
    norm_num [Spec.variance, Spec.centralMoment, Spec.mean]
  rw [C07_skewness _ lazyMean_correct _ (by simp) hv]
  norm_num [Spec.centralMoment, Spec.mean]

/-! ## C09 min and max -/

section minmax
variable {α : Type u} [LinearOrder α]

theorem maxRun_eq (lo : α) (xs : List α) : maxRun ltb lo xs = xs.foldl max lo := by
  unfold maxRun
  congr 1
  funext a b
  unfold maxAssign ltb
  by_cases h : a < b
  · simp [h, max_eq_right h.le]
  · simp [h, max_eq_left (not_lt.1 h)]

theorem minRun_eq (hi : α) (xs : List α) : minRun ltb hi xs = xs.foldl min hi := by
  unfold minRun
  congr 1
  funext a b
  unfold minAssign ltb
  by_cases h : b < a
  · simp [h, min_eq_right h.le]
  · simp [h, min_eq_left (not_lt.1 h)]

theorem foldl_max_spec (lo : α) (xs : List α) :
    lo ≤ xs.foldl max lo ∧ (∀ x ∈ xs, x ≤ xs.foldl max lo)
      ∧ (xs.foldl max lo = lo ∨ xs.foldl max lo ∈ xs) := by
  induction xs generalizing lo with
  | nil => simp
  | cons x xs ih =>
    obtain ⟨h1, h2, h3⟩ := ih (max lo x)
    refine ⟨le_trans (le_max_left _ _) h1, ?_, ?_⟩
    · intro y hy
      rcases List.mem_cons.1 hy with rfl | hy
      · exact le_trans (le_max_right _ _) h1
      · exact h2 y hy
    · simp only [List.foldl_cons, List.mem_cons]
      rcases h3 with h3 | h3
      · rw [h3]
        rcases max_choice lo x with h | h
        · left; exact h
        · right; left; exact h
      · right; right; exact h3

theorem foldl_min_spec (hi : α) (xs : List α) :
    xs.foldl min hi ≤ hi ∧ (∀ x ∈ xs, xs.foldl min hi ≤ x)
      ∧ (xs.foldl min hi = hi ∨ xs.foldl min hi ∈ xs) :=
  foldl_max_spec (α := αᵒᵈ) hi xs

/-- **C09.** `max(acc)` is the greatest sample, for every non-empty stream of values not below the
type's lower limit. -/
theorem C09_max (lo : α) (xs : List α) (h : xs ≠ []) (hlo : ∀ x ∈ xs, lo ≤ x) :
    IsGreatest {x | x ∈ xs} (maxRun ltb lo xs) := by
  rw [maxRun_eq]
  obtain ⟨h1, h2, h3⟩ := foldl_max_spec lo xs
  refine ⟨?_, fun x hx => h2 x hx⟩
  rcases h3 with h3 | h3
  · obtain ⟨x, hx⟩ := List.exists_mem_of_ne_nil xs h
    have : x = lo := le_antisymm (h3 ▸ h2 x hx) (hlo x hx)
    show xs.foldl max lo ∈ xs
    rw [h3, ← this]; exact hx
  · exact h3

/-- **C09.** `min(acc)` is the least sample, for every non-empty stream of values not above the
type's upper limit. -/
theorem C09_min (hi : α) (xs : List α) (h : xs ≠ []) (hhi : ∀ x ∈ xs, x ≤ hi) :
    IsLeast {x | x ∈ xs} (minRun ltb hi xs) := by
  rw [minRun_eq]
  obtain ⟨h1, h2, h3⟩ := foldl_min_spec hi xs
  refine ⟨?_, fun x hx => h2 x hx⟩
  rcases h3 with h3 | h3
  · obtain ⟨x, hx⟩ := List.exists_mem_of_ne_nil xs h
    have : x = hi := le_antisymm (hhi x hx) (h3 ▸ h2 x hx)
    show xs.foldl min hi ∈ xs
    rw [h3, ← this]; exact hx
  · exact h3

/-- **C09.** With no samples, the limits of the type are returned. -/
theorem C09_empty (lo hi : α) : maxRun ltb lo [] = lo ∧ minRun ltb hi [] = hi := ⟨rfl, rfl⟩

/-- **C09.** Without the assumption on the limits: the exact result for any start value. -/
theorem C09_max_general (lo : α) (xs : List α) :
    IsGreatest {x | x = lo ∨ x ∈ xs} (maxRun ltb lo xs) := by
  rw [maxRun_eq]
  obtain ⟨h1, h2, h3⟩ := foldl_max_spec lo xs
  refine ⟨h3, ?_⟩
  rintro x (rfl | hx)
  · exact h1
  · exact h2 x hx

/-- **C09.** Without the assumption on the limits: the exact result for any start value. -/
theorem C09_min_general (hi : α) (xs : List α) :
    IsLeast {x | x = hi ∨ x ∈ xs} (minRun ltb hi xs) := by
  rw [minRun_eq]
  obtain ⟨h1, h2, h3⟩ := foldl_min_spec hi xs
  refine ⟨h3, ?_⟩
  rintro x (rfl | hx)
  · exact h1
  · exact h2 x hx

/-- Comparison on a floating point type: `none` is NaN and compares false with everything. -/
def fpLess : Option α → Option α → Bool
  | some a, some b => decide (a < b)
  | _, _ => false

/-- **C09.** NaN samples are ignored: `max` and `min` are those of the ordinary samples alone. -/
theorem C09_nan_ignored (lo hi : α) (xs : List (Option α)) :
    maxRun fpLess (some lo) xs = some (maxRun ltb lo xs.reduceOption)
      ∧ minRun fpLess (some hi) xs = some (minRun ltb hi xs.reduceOption) := by
  constructor
  · unfold maxRun
    induction xs generalizing lo with
    | nil => rfl
    | cons x xs ih =>
      cases x with
      | none => exact ih lo
      | some a =>
        have e : (some a :: xs).reduceOption = a :: xs.reduceOption := by
          simp [List.reduceOption]
        rw [List.foldl_cons, e, List.foldl_cons, ← ih (maxAssign ltb lo a)]
        congr 1
        by_cases h : lo < a <;> simp [maxAssign, fpLess, ltb, h]
  · unfold minRun
    induction xs generalizing hi with
    | nil => rfl
    | cons x xs ih =>
      cases x with
      | none => exact ih hi
      | some a =>
        have e : (some a :: xs).reduceOption = a :: xs.reduceOption := by
          simp [List.reduceOption]
        rw [List.foldl_cons, e, List.foldl_cons, ← ih (minAssign ltb hi a)]
        congr 1
        by_cases h : a < hi <;> simp [minAssign, fpLess, ltb, h]

end minmax

/-- **C09 fails** for a user-defined floating point class (one with `numeric_limits` but for which
`is_floating_point` is false): `as_min` then returns the smallest *positive* number, and the maximum of a
stream of negative samples is not one of the samples. -/
theorem C09_user_defined_float_fails :
    ∃ (limitMin limitMax : ℚ) (xs : List ℚ), xs ≠ [] ∧ (∀ x ∈ xs, -limitMax ≤ x ∧ x ≤ limitMax) ∧
      maxRun ltb (asMin false limitMin limitMax) xs ∉ xs :=
  ⟨1 / 1000, 1000, [-1, -2], by simp, by norm_num, by norm_num [maxRun, maxAssign, ltb, asMin]⟩

/-- **C09.** From the starting values of the code: for a built-in floating point type with largest number `limitMax`,
and for an integral type with limits `limitMin` and `limitMax`, the maximum and minimum of a non-empty stream are
those of the samples. -/
theorem C09_limits {α : Type} [AddCommGroup α] [LinearOrder α] (limitMin limitMax : α) (xs : List α) (h : xs ≠ []) :
    ((∀ x ∈ xs, -limitMax ≤ x ∧ x ≤ limitMax) →
      IsGreatest {x | x ∈ xs} (maxRun ltb (asMin true limitMin limitMax) xs)
      ∧ IsLeast {x | x ∈ xs} (minRun ltb (asMax limitMax) xs))
    ∧ ((∀ x ∈ xs, limitMin ≤ x ∧ x ≤ limitMax) →
      IsGreatest {x | x ∈ xs} (maxRun ltb (asMin false limitMin limitMax) xs)
      ∧ IsLeast {x | x ∈ xs} (minRun ltb (asMax limitMax) xs)) :=
  ⟨fun hx => ⟨C09_max _ _ h fun x m => (hx x m).1, C09_min _ _ h fun x m => (hx x m).2⟩,
    fun hx => ⟨C09_max _ _ h fun x m => (hx x m).1, C09_min _ _ h fun x m => (hx x m).2⟩⟩

example : maxRun ltb (asMin true (1 / 1000) 1000) [-1, -2] = (-1 : ℚ) := by
  norm_num [maxRun, maxAssign, ltb, asMin]
example : IsGreatest {x | x ∈ [3, -1, 7, (2 : ℤ)]} (maxRun ltb (-100) [3, -1, 7, 2]) :=
  C09_max _ _ (by simp) (by decide)

/-! ## C10 permutation invariance -/

theorem perm_sum {M : Type*} [AddCommMonoid M] {A : Type*} (f : A → M) {xs ys : List A}
    (hp : xs.Perm ys) : (xs.map f).sum = (ys.map f).sum := (hp.map f).sum_eq

section perm
variable {K : Type u} [Field K] [CharZero K] [DecidableEq K]

theorem mean_perm {xs ys : List K} (hp : xs.Perm ys) : Spec.mean xs = Spec.mean ys := by
  simp [Spec.mean, hp.sum_eq, hp.length_eq]

theorem centralMoment_perm (k : ℕ) {xs ys : List K} (hp : xs.Perm ys) :
    Spec.centralMoment k xs = Spec.centralMoment k ys := by
  simp only [Spec.centralMoment, mean_perm hp, hp.length_eq, perm_sum _ hp]

/-- **C10.** Any reordering of the stream yields the same sum, Kahan sum, mean (both variants), moments,
variance (both variants) and kurtosis. -/
theorem C10_perm (xs ys : List K) (hp : xs.Perm ys) (h : xs ≠ []) (N : ℕ) (x0 : K) :
    sumRun id x0 xs = sumRun id x0 ys
      ∧ (kahanRun id x0 xs).sum = (kahanRun id x0 ys).sum
      ∧ (lazyMean x0).read ((lazyMean x0).run xs) = (lazyMean x0).read ((lazyMean x0).run ys)
      ∧ (immMean x0).read ((immMean x0).run xs) = (immMean x0).read ((immMean x0).run ys)
      ∧ momentRun N x0 xs = momentRun N x0 ys
      ∧ varianceRun (immMean 0) x0 xs = varianceRun (immMean 0) x0 ys
      ∧ varianceRun (lazyMean 0) x0 xs = varianceRun (lazyMean 0) x0 ys
      ∧ lazyVarianceRun (lazyMean 0) x0 xs = lazyVarianceRun (lazyMean 0) x0 ys
      ∧ lazyVarianceRun (immMean 0) x0 xs = lazyVarianceRun (immMean 0) x0 ys
      ∧ kurtosisRun (lazyMean 0) xs = kurtosisRun (lazyMean 0) ys
      ∧ kurtosisRun (immMean 0) xs = kurtosisRun (immMean 0) ys := by
  have h' : ys ≠ [] := fun e => h (by simpa [e] using hp)
  have hm : momentRun N x0 xs = momentRun N x0 ys := by
    simp only [momentRun, momentRun_state, hp.length_eq, perm_sum _ hp]
  have hmom : ∀ N x0, momentRun N x0 xs = momentRun N x0 ys := by
    intro N x0
    simp only [momentRun, momentRun_state, hp.length_eq, perm_sum _ hp]
  have hmean : ∀ P : MeanProvider K K, P.Correct → P.read (P.run xs) = P.read (P.run ys) := by
    intro P hP; rw [hP xs h, hP ys h', mean_perm hp]
  have hvar : ∀ P : MeanProvider K K, P.Correct → varianceRun P x0 xs = varianceRun P x0 ys := by
    intro P hP
    rw [C06_variance_initial P hP x0 xs h, C06_variance_initial P hP x0 ys h',
      Spec.variance, Spec.variance, centralMoment_perm 2 hp, hp.length_eq]
  refine ⟨?_, ?_, ?_, hmean _ (immMean_correct x0), hm, hvar _ (immMean_correct 0),
    hvar _ lazyMean_correct, ?_, ?_, ?_, ?_⟩
  · rw [sumRun_eq, sumRun_eq, perm_sum _ hp]
  · rw [kahanRun_eq, kahanRun_eq, perm_sum _ hp]
  · rw [C04_lazy_mean_initial x0 xs h, C04_lazy_mean_initial x0 ys h', hp.sum_eq, hp.length_eq]
  · simp only [lazyVarianceRun, hmom, hmean _ lazyMean_correct]
  · simp only [lazyVarianceRun, hmom, hmean _ (immMean_correct 0)]
  · simp only [kurtosisRun, hmom, hmean _ lazyMean_correct]
  · simp only [kurtosisRun, hmom, hmean _ (immMean_correct 0)]

/-- **C10.** Any reordering of the pairs yields the same covariance. -/
theorem C10_covariance_perm (ps qs : List (K × K)) (hp : ps.Perm qs) (h : ps ≠ []) :
    covarianceRun (lazyMean 0) (lazyMean 0) 0 0 ps
      = covarianceRun (lazyMean 0) (lazyMean 0) 0 0 qs := by
  have h' : qs ≠ [] := fun e => h (by simpa [e] using hp)
  rw [C08_covariance _ _ lazyMean_correct lazyMean_correct ps h,
    C08_covariance _ _ lazyMean_correct lazyMean_correct qs h']
  simp only [Spec.covariance, mean_perm (hp.map Prod.fst), mean_perm (hp.map Prod.snd),
    hp.length_eq, perm_sum _ hp]

end perm

/-- **C10.** Any reordering of the stream yields the same skewness. -/
theorem C10_skewness_perm (xs ys : List ℝ) (hp : xs.Perm ys) (h : xs ≠ []) :
    skewnessRun (lazyMean 0) xs = skewnessRun (lazyMean 0) ys := by
  have h' : ys ≠ [] := fun e => h (by simpa [e] using hp)
  have hmom : ∀ N x0, momentRun N x0 xs = momentRun N x0 ys := by
    intro N x0
    simp only [momentRun, momentRun_state, hp.length_eq, perm_sum _ hp]
  simp only [skewnessRun, hmom, lazyMean_correct xs h, lazyMean_correct ys h', mean_perm hp]

/-- **C10.** Any reordering of the stream yields the same minimum and maximum. -/
theorem C10_minmax_perm {α : Type u} [LinearOrder α] (lo hi : α) (xs ys : List α)
    (hp : xs.Perm ys) : maxRun ltb lo xs = maxRun ltb lo ys ∧ minRun ltb hi xs = minRun ltb hi ys := by
  constructor
  · refine (C09_max_general lo xs).unique ?_
    have := C09_max_general lo ys
    simpa only [hp.mem_iff] using this
  · refine (C09_min_general hi xs).unique ?_
    have := C09_min_general hi ys
    simpa only [hp.mem_iff] using this

example : varianceRun (immMean (0 : ℚ)) 0 [1, 2, 6] = varianceRun (immMean 0) 0 [6, 1, 2] :=
  (C10_perm [1, 2, 6] [6, 1, 2] (by decide) (by simp) 1 0).2.2.2.2.2.1

/-! ## C11 error_of<mean> -/

theorem count_foldl_toNat {X : Type*} (w : ℕ) (xs : List X) :
    (xs.foldl (fun c _ => countStep c) (countInit w)).toNat = xs.length % 2 ^ w := by
  induction xs using List.reverseRecOn with
  | nil => simp [countInit]
  | append_singleton xs x ih =>
    rw [List.foldl_append, List.foldl_cons, List.foldl_nil, countStep, BitVec.toNat_add, ih]
    simp

theorem count_sub_one_toNat {X : Type*} (w : ℕ) (xs : List X) (h : xs ≠ [])
    (hw : xs.length < 2 ^ w) :
    ((xs.foldl (fun c _ => countStep c) (countInit w)) - 1#w).toNat = xs.length - 1 := by
  have hpos := List.length_pos_iff.mpr h
  have h1 := count_foldl_toNat w xs
  rw [Nat.mod_eq_of_lt hw] at h1
  have hw1 : 1 < 2 ^ w := by omega
  rw [BitVec.toNat_sub, h1]
  simp only [BitVec.toNat_ofNat, Nat.mod_eq_of_lt hw1]
  have : 2 ^ w - 1 + xs.length = 2 ^ w + (xs.length - 1) := by omega
  rw [this, Nat.add_mod_left, Nat.mod_eq_of_lt (by omega)]

theorem errorOfMean_val (w : ℕ) (v : ℝ) (hv : 0 ≤ v) (xs : List ℝ) (h : 2 ≤ xs.length)
    (hw : xs.length < 2 ^ w) :
    errorOfMeanResult w (.val v) (xs.foldl (fun c _ => countStep c) (countInit w))
      = .val (Real.sqrt (v / ((xs.length : ℝ) - 1))) := by
  have hne : xs ≠ [] := by rintro rfl; simp at h
  have hc : ((xs.length - 1 : ℕ) : ℝ) = (xs.length : ℝ) - 1 := by
    rw [Nat.cast_sub (by omega)]; simp
  have hpos : (0 : ℝ) < (xs.length : ℝ) - 1 := by
    rw [← hc]; exact_mod_cast (by omega : 0 < xs.length - 1)
  simp only [errorOfMeanResult, Res.val_bind, count_sub_one_toNat w xs hne hw, hc]
  rw [fdiv_ne hpos.ne']
  simp [not_lt.2 (div_nonneg hv hpos.le)]

/-- **C11.** For at least two samples both variants return a number whose square is the variance divided by
`n - 1` (the number of samples fits into `size_t`). -/
theorem C11_error_of_mean (w : ℕ) (P : MeanProvider ℝ ℝ) (hP : P.Correct) (xs : List ℝ)
    (h : 2 ≤ xs.length) (hw : xs.length < 2 ^ w) :
    ∃ e, errorOfMeanRun w P xs = .val e ∧ errorOfImmMeanRun w P xs = .val e ∧ 0 ≤ e ∧
      e ^ 2 = Spec.variance xs / ((xs.length : ℝ) - 1) := by
  have hne : xs ≠ [] := by rintro rfl; simp at h
  refine ⟨Real.sqrt (Spec.variance xs / ((xs.length : ℝ) - 1)), ?_, ?_, Real.sqrt_nonneg _, ?_⟩
  · rw [errorOfMeanRun, C06_lazy_variance P hP xs hne,
      errorOfMean_val w _ (variance_nonneg xs) xs h hw]
  · rw [errorOfImmMeanRun, C06_variance P hP xs hne,
      errorOfMean_val w _ (variance_nonneg xs) xs h hw]
  · rw [Real.sq_sqrt]
    apply div_nonneg (variance_nonneg xs)
    have : (2 : ℝ) ≤ xs.length := by exact_mod_cast h
    linarith

/-- **C11.** One sample: the result is not a number (`0/0`), for both variants. -/
theorem C11_one_sample (w : ℕ) (hw : 0 < w) (P : MeanProvider ℝ ℝ) (hP : P.Correct) (x : ℝ) :
    errorOfMeanRun w P [x] = .nonfinite ∧ errorOfImmMeanRun w P [x] = .nonfinite := by
  have hw' : [x].length < 2 ^ w := by
    simpa using Nat.one_lt_two_pow_iff.2 hw.ne'
  have hc := count_sub_one_toNat w [x] (by simp) hw'
  constructor
  · rw [errorOfMeanRun, C06_lazy_variance P hP [x] (by simp)]
    simp only [errorOfMeanResult, Res.val_bind, hc]; simp
  · rw [errorOfImmMeanRun, C06_variance P hP [x] (by simp)]
    simp only [errorOfMeanResult, Res.val_bind, hc]; simp

/-- **C11.** No samples: the lazy variant returns a NaN. -/
theorem C11_no_samples_lazy (w : ℕ) :
    errorOfMeanRun w (lazyMean 0) [] = .nonfinite := by
  simp [errorOfMeanRun, lazyVarianceRun, lazyVarianceResult, lazyMean, MeanProvider.run,
    errorOfMeanResult]

/-- The `n < 2` part of C11 is false for `error_of<immediate_mean>` with no samples: the unsigned
`count - 1` wraps to `2^w - 1` and the result is the finite value 0. -/
theorem C11_no_samples_immediate_finite (w : ℕ) (hw : 0 < w) :
    errorOfImmMeanRun w (immMean 0) [] = .val 0 := by
  have h0 : ((countInit w - 1#w).toNat : ℝ) ≠ 0 := by
    have h1 : 1 < 2 ^ w := Nat.one_lt_two_pow_iff.2 hw.ne'
    have : (countInit w - 1#w).toNat = 2 ^ w - 1 := by
      simp only [countInit, BitVec.toNat_sub, BitVec.toNat_ofNat, Nat.mod_eq_of_lt h1,
        Nat.zero_mod, Nat.add_zero]
      rw [Nat.mod_eq_of_lt (by omega)]
    rw [this]
    exact_mod_cast (by omega : 2 ^ w - 1 ≠ 0)
  simp only [errorOfImmMeanRun, varianceRun, List.foldl_nil, VarianceSt.init, errorOfMeanResult,
    fdiv_one, Res.val_bind]
  rw [fdiv_ne h0]
  simp

example : ∃ e, errorOfMeanRun 64 (lazyMean 0) [1, 3] = .val e ∧ e ^ 2 = 1 := by
  obtain ⟨e, h1, _, _, h2⟩ := C11_error_of_mean 64 _ lazyMean_correct [1, 3] (by simp) (by simp)
  exact ⟨e, h1, by rw [h2]; norm_num [Spec.variance, Spec.centralMoment, Spec.mean]⟩

end Acc
