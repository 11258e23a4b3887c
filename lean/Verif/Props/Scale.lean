import Verif.Proofs.ScalePsq
import Verif.Props.Round

/-!
# C99: a change of units by a power of two is exact

Multiplying a `double` by a power of two is exact (in the absence of overflow and underflow), and so is a change of sign.  The
statistics follow such a change of units exactly, in every bit, although all of them are computed with rounding.
-/

set_option linter.unusedSectionVars false

namespace Acc

variable {K : Type} [Field K] [LinearOrder K] [IsStrictOrderedRing K] {R : Rounding K} {s t : K}

/-! ### The factors -/

/-- **C99** In a binary format, rounding commutes with multiplication by powers of two and with a change of sign. -/
theorem C99_factors (p : ℕ) (hp : 0 < p) (k : ℤ) :
    (nearest p hp).Exact (2 ^ k) ∧ (nearest p hp).Exact (-2 ^ k) ∧ (nearest p hp).Odd := by
  have h : (nearest p hp).Exact (2 ^ k) := ⟨by positivity, roundBits_two_zpow_mul p k⟩
  have ho : (nearest p hp).Odd := roundBits_neg p
  refine ⟨h, ⟨neg_ne_zero.2 h.1, fun x => ?_⟩, ho⟩
  rw [neg_mul, ho, h.2, neg_mul]

/-- A change of units of a sample is exact. -/
theorem C99_scale_exact (hs : R.Exact s) (a : Fl R) : (Fl.scale s a).val = s * a.val := scaled_scale hs a

theorem forall₂_map_scale (hs : R.Exact s) (xs : List (Fl R)) : List.Forall₂ (Scaled s) xs (xs.map (Fl.scale s)) := by
  induction xs with
  | nil => exact .nil
  | cons a _ ih => exact .cons (scaled_scale hs a) ih

/-- Change of units of a sample and its weight (or covariate). -/
def scale2 (s t : K) (p : Fl R × Fl R) : Fl R × Fl R := (Fl.scale s p.1, Fl.scale t p.2)

theorem forall₂_map_scale2 (hs : R.Exact s) (ht : R.Exact t) (ps : List (Fl R × Fl R)) :
    List.Forall₂ (ScaledPair s t) ps (ps.map (scale2 s t)) := by
  induction ps with
  | nil => exact .nil
  | cons a _ ih => exact .cons ⟨scaled_scale hs a.1, scaled_scale ht a.2⟩ ih

theorem Res.Lift.map_eq {α β : Type} {r : α → β → Prop} {f : α → β} (hr : ∀ a b, r a b → b = f a) {x : Res α} {y : Res β}
    (h : Res.Lift r x y) : y = f <$> x := by
  cases x <;> cases y <;> first | exact h.elim | rfl | exact congrArg Res.val (hr _ _ h)

/-! ### Sums, means, moments -/

/-- **C99** Sums, also compensated ones. -/
theorem C99_sum (hs : R.Exact s) (xs : List (Fl R)) :
    sumRun id 0 (xs.map (Fl.scale s)) = Fl.scale s (sumRun id 0 xs) ∧
    (kahanRun id 0 (xs.map (Fl.scale s))).sum = Fl.scale s (kahanRun id 0 xs).sum :=
  ⟨(scaled_sumRun (tag := id) (tag' := id) hs (forall₂_map_scale hs xs) Scaled.zero).eq hs,
    (scaled_kahanRun (tag := id) (tag' := id) hs (forall₂_map_scale hs xs) Scaled.zero).eq hs⟩

/-- **C99** The providers of the mean in a set. -/
theorem C99_mean (hs : R.Exact s) (P : MeanProvider (Fl R) (Fl R)) (hP : P = lazyMean 0 ∨ P = immMean 0) (xs : List (Fl R)) :
    P.read (P.run (xs.map (Fl.scale s))) = Fl.scale s <$> P.read (P.run xs) := by
  have h : P.Scales (Scaled s) s := by
    rcases hP with rfl | rfl
    · exact scales_lazyMean hs
    · exact scales_immMean hs
  exact (h.read_run (forall₂_map_scale hs xs)).eq_map hs

/-- **C99** Moments. -/
theorem C99_moment (hs : R.Exact s) (N : ℕ) (xs : List (Fl R)) :
    momentRun N 0 (xs.map (Fl.scale s)) = Fl.scale (s ^ N) <$> momentRun N 0 xs :=
  (scaled_momentRun hs N (forall₂_map_scale hs xs)).eq_map (hs.pow N)

/-! ### Second moments -/

theorem scales_mean (hs : R.Exact s) {P : MeanProvider (Fl R) (Fl R)} (hP : P = lazyMean 0 ∨ P = immMean 0) :
    P.Scales (Scaled s) s := by
  rcases hP with rfl | rfl
  · exact scales_lazyMean hs
  · exact scales_immMean hs

/-- **C99** Both variances, over both means. -/
theorem C99_variance (hs : R.Exact s) (P : MeanProvider (Fl R) (Fl R)) (hP : P = lazyMean 0 ∨ P = immMean 0) (xs : List (Fl R)) :
    lazyVarianceRun P 0 (xs.map (Fl.scale s)) = Fl.scale (s ^ 2) <$> lazyVarianceRun P 0 xs ∧
    varianceRun P 0 (xs.map (Fl.scale s)) = Fl.scale (s ^ 2) <$> varianceRun P 0 xs := by
  have hl := forall₂_map_scale hs xs
  have h := scales_mean hs hP
  exact ⟨(scaled_lazyVarianceResult hs (scaled_momentRun hs 2 hl) (h.read_run hl)).eq_map (hs.pow 2),
    (scaled_varianceRun hs h hl).eq_map (hs.pow 2)⟩

/-- **C99** The covariance: sample and covariate have factors of their own. -/
theorem C99_covariance (hs : R.Exact s) (ht : R.Exact t) (P Q : MeanProvider (Fl R) (Fl R)) (hP : P = lazyMean 0 ∨ P = immMean 0)
    (hQ : Q = lazyMean 0 ∨ Q = immMean 0) (ps : List (Fl R × Fl R)) :
    covarianceRun P Q 0 0 (ps.map (scale2 s t)) = Fl.scale (s * t) <$> covarianceRun P Q 0 0 ps :=
  (scaled_covarianceRun hs ht (scales_mean hs hP) (scales_mean ht hQ) (forall₂_map_scale2 hs ht ps)).eq_map (hs.mul ht)

theorem scale_one (a : Fl R) : Fl.scale 1 a = a := by
  apply Fl.ext
  rw [scaled_scale Rounding.Exact.one a, one_mul]

theorem map_scale_one (x : Res (Fl R)) : Fl.scale 1 <$> x = x := by
  cases x <;> first | rfl | exact congrArg Res.val (scale_one _)

/-- **C99** The kurtosis does not depend on the units. -/
theorem C99_kurtosis (hs : R.Exact s) (P : MeanProvider (Fl R) (Fl R)) (hP : P = lazyMean 0 ∨ P = immMean 0) (xs : List (Fl R)) :
    kurtosisRun P (xs.map (Fl.scale s)) = kurtosisRun P xs := by
  have hl := forall₂_map_scale hs xs
  have h := (scaled_kurtosisResult hs (scaled_momentRun hs 2 hl) (scaled_momentRun hs 3 hl) (scaled_momentRun hs 4 hl)
    ((scales_mean hs hP).read_run hl)).eq_map Rounding.Exact.one
  rwa [map_scale_one] at h

/-- **C99** The skewness does not depend on the units (for a change of sign see `C99_mirror`), and the error of the mean is in
the units of the samples; `root` is `std::sqrt`, which is to follow the factor. -/
theorem C99_root (hs : R.Exact s) (h0 : 0 < s) {root : Fl R → Res (Fl R)} (hr : RootScales root s) (w : ℕ)
    (P : MeanProvider (Fl R) (Fl R)) (hP : P = lazyMean 0 ∨ P = immMean 0) (xs : List (Fl R)) :
    skewnessRunWith root P (xs.map (Fl.scale s)) = skewnessRunWith root P xs ∧
    errorOfMeanRunWith root w P (xs.map (Fl.scale s)) = Fl.scale s <$> errorOfMeanRunWith root w P xs ∧
    errorOfImmMeanRunWith root w P (xs.map (Fl.scale s)) = Fl.scale s <$> errorOfImmMeanRunWith root w P xs := by
  have hl := forall₂_map_scale hs xs
  have ha : |s| = s := abs_of_pos h0
  have hc : ∀ c : BitVec w, (xs.map (Fl.scale s)).foldl (fun c _ => countStep c) c = xs.foldl (fun c _ => countStep c) c :=
    fun c => by rw [List.foldl_map]
  have h := (scales_mean hs hP).read_run hl
  refine ⟨?_, ?_, ?_⟩
  · have := (scaled_skewnessWith hs (ha.symm ▸ hs) hr (scaled_momentRun hs 2 hl) (scaled_momentRun hs 3 hl) h)
    rw [ha, div_self hs.1] at this
    have := this.eq_map Rounding.Exact.one
    rwa [map_scale_one] at this
  · have := scaled_errorOfMeanWith (w := w) (c := xs.foldl (fun c _ => countStep c) (countInit w)) hs hr
      (scaled_lazyVarianceResult hs (scaled_momentRun hs 2 hl) h)
    rw [ha] at this
    unfold errorOfMeanRunWith
    rw [hc]
    exact this.eq_map hs
  · have := scaled_errorOfMeanWith (w := w) (c := xs.foldl (fun c _ => countStep c) (countInit w)) hs hr
      (scaled_varianceRun hs (scales_mean hs hP) hl)
    rw [ha] at this
    unfold errorOfImmMeanRunWith
    rw [hc]
    exact this.eq_map hs

theorem scaled_neg_one {x : Fl R} : Scaled (-1 : K) x (-x) := by simp [Scaled]

/-- **C99** A change of sign: the skewness changes its sign, the error of the mean stays. -/
theorem C99_mirror (ho : R.Odd) {root : Fl R → Res (Fl R)} (w : ℕ) (P : MeanProvider (Fl R) (Fl R))
    (hP : P = lazyMean 0 ∨ P = immMean 0) (xs : List (Fl R)) :
    skewnessRunWith root P (xs.map Neg.neg) = Neg.neg <$> skewnessRunWith root P xs ∧
    errorOfMeanRunWith root w P (xs.map Neg.neg) = errorOfMeanRunWith root w P xs ∧
    errorOfImmMeanRunWith root w P (xs.map Neg.neg) = errorOfImmMeanRunWith root w P xs := by
  have hs : R.Exact (-1 : K) := ⟨by norm_num, fun x => by rw [neg_one_mul, ho, neg_one_mul]⟩
  have hl : List.Forall₂ (Scaled (-1 : K)) xs (xs.map Neg.neg) := by
    induction xs with
    | nil => exact .nil
    | cons a _ ih => exact .cons scaled_neg_one ih
  have ha : |(-1 : K)| = 1 := by simp
  have hr : RootScales root (-1 : K) := by
    intro x y h
    have : y = x := Fl.ext (by rw [h]; ring)
    rw [this, ha]
    exact Res.Lift.refl (fun _ => Scaled.self) _
  have hc : ∀ c : BitVec w, (xs.map Neg.neg).foldl (fun c _ => countStep c) c = xs.foldl (fun c _ => countStep c) c :=
    fun c => by rw [List.foldl_map]
  have h := (scales_mean hs hP).read_run hl
  refine ⟨?_, ?_, ?_⟩
  · have := scaled_skewnessWith hs (ha.symm ▸ Rounding.Exact.one) hr (scaled_momentRun hs 2 hl) (scaled_momentRun hs 3 hl) h
    rw [ha, div_one] at this
    refine this.map_eq fun a b h => Fl.ext ?_
    rw [h, Fl.val_neg, neg_one_mul]
  · have := scaled_errorOfMeanWith (w := w) (c := xs.foldl (fun c _ => countStep c) (countInit w)) hs hr
      (scaled_lazyVarianceResult hs (scaled_momentRun hs 2 hl) h)
    rw [ha] at this
    unfold errorOfMeanRunWith
    rw [hc]
    have := this.eq_map Rounding.Exact.one
    rwa [map_scale_one] at this
  · have := scaled_errorOfMeanWith (w := w) (c := xs.foldl (fun c _ => countStep c) (countInit w)) hs hr
      (scaled_varianceRun hs (scales_mean hs hP) hl)
    rw [ha] at this
    unfold errorOfImmMeanRunWith
    rw [hc]
    have := this.eq_map Rounding.Exact.one
    rwa [map_scale_one] at this

/-! ### With weights -/

theorem scales_wmean (hs : R.Exact s) (ht : R.Exact t) {P : MeanProvider (Fl R × Fl R) (Fl R)}
    (hP : P = lazyWMean 0 ∨ P = immWMean 0) : P.Scales (ScaledPair s t) s := by
  rcases hP with rfl | rfl
  · exact scales_lazyWMean hs ht
  · exact scales_immWMean hs ht

/-- **C99** The weighted sums have the units of both. -/
theorem C99_weighted_sum (hs : R.Exact s) (ht : R.Exact t) (ps : List (Fl R × Fl R)) :
    weightedSumRun 0 (ps.map (scale2 s t)) = Fl.scale (s * t) (weightedSumRun 0 ps) ∧
    (weightedKahanRun 0 (ps.map (scale2 s t))).sum = Fl.scale (s * t) (weightedKahanRun 0 ps).sum := by
  have hl := forall₂_map_scale2 hs ht ps
  have hst := hs.mul ht
  constructor
  · exact Scaled.eq hst (foldl_rel (r := Scaled (s * t)) (f := weightedSumStep) (g := weightedSumStep)
      (fun a b x y h k => h.add hst (k.1.mul hs ht k.2)) hl (s := 0 * 1) (t := 0 * 1) scaled_zero_mul)
  · refine Scaled.eq hst (foldl_rel (r := fun a b : Kahan (Fl R) => Scaled (s * t) a.sum b.sum ∧
      Scaled (s * t) a.compensation b.compensation) (f := weightedKahanStep) (g := weightedKahanStep)
      (fun a b x y h k => ?_) hl (s := ⟨0 * 1, 0⟩) (t := ⟨0 * 1, 0⟩) ⟨scaled_zero_mul, Scaled.zero⟩).1
    have t1 := (k.1.mul hs ht k.2).sub hst h.2
    have t2 := h.1.add hst t1
    exact ⟨t2, (t2.sub hst h.1).sub hst t1⟩

/-- **C99** Weighted means, moments, variances and kurtosis follow the units of the samples, and the units of the weights do
not matter at all. -/
theorem C99_weighted (hs : R.Exact s) (ht : R.Exact t) (P : MeanProvider (Fl R × Fl R) (Fl R))
    (hP : P = lazyWMean 0 ∨ P = immWMean 0) (N : ℕ) (ps : List (Fl R × Fl R)) :
    P.read (P.run (ps.map (scale2 s t))) = Fl.scale s <$> P.read (P.run ps) ∧
    weightedMomentRun N 0 (ps.map (scale2 s t)) = Fl.scale (s ^ N) <$> weightedMomentRun N 0 ps ∧
    lazyWeightedVarianceRun P (ps.map (scale2 s t)) = Fl.scale (s ^ 2) <$> lazyWeightedVarianceRun P ps ∧
    weightedVarianceRun P 0 (ps.map (scale2 s t)) = Fl.scale (s ^ 2) <$> weightedVarianceRun P 0 ps ∧
    weightedKurtosisRun P (ps.map (scale2 s t)) = weightedKurtosisRun P ps := by
  have hl := forall₂_map_scale2 hs ht ps
  have h := scales_wmean hs ht hP
  have m := fun n => scaled_weightedMomentRun hs ht n hl
  refine ⟨(h.read_run hl).eq_map hs, (m N).eq_map (hs.pow N),
    (scaled_lazyVarianceResult hs (m 2) (h.read_run hl)).eq_map (hs.pow 2),
    (scaled_weightedVarianceRun hs ht h hl).eq_map (hs.pow 2), ?_⟩
  have k := (scaled_kurtosisResult hs (m 2) (m 3) (m 4) (h.read_run hl)).eq_map Rounding.Exact.one
  rwa [map_scale_one] at k

/-- **C99** The weighted skewness. -/
theorem C99_weighted_skewness (hs : R.Exact s) (ht : R.Exact t) (h0 : 0 < s) {root : Fl R → Res (Fl R)} (hr : RootScales root s)
    (P : MeanProvider (Fl R × Fl R) (Fl R)) (hP : P = lazyWMean 0 ∨ P = immWMean 0) (ps : List (Fl R × Fl R)) :
    weightedSkewnessRunWith root P (ps.map (scale2 s t)) = weightedSkewnessRunWith root P ps := by
  have hl := forall₂_map_scale2 hs ht ps
  have ha : |s| = s := abs_of_pos h0
  have := (scaled_skewnessWith hs (ha.symm ▸ hs) hr (scaled_weightedMomentRun hs ht 2 hl) (scaled_weightedMomentRun hs ht 3 hl)
    ((scales_wmean hs ht hP).read_run hl))
  rw [ha, div_self hs.1] at this
  have := this.eq_map Rounding.Exact.one
  rwa [map_scale_one] at this

/-- **C99** The weighted covariance. -/
theorem C99_weighted_covariance {s' : K} (hs : R.Exact s) (hs' : R.Exact s') (ht : R.Exact t)
    (P Q : MeanProvider (Fl R × Fl R) (Fl R)) (hP : P = lazyWMean 0 ∨ P = immWMean 0) (hQ : Q = lazyWMean 0 ∨ Q = immWMean 0)
    (ps : List ((Fl R × Fl R) × Fl R)) :
    weightedCovarianceRun P Q (ps.map fun p => (scale2 s s' p.1, Fl.scale t p.2))
      = Fl.scale (s * s') <$> weightedCovarianceRun P Q ps := by
  refine (scaled_weightedCovarianceRun hs hs' ht (scales_wmean hs ht hP) (scales_wmean hs' ht hQ) ?_).eq_map (hs.mul hs')
  induction ps with
  | nil => exact .nil
  | cons p _ ih => exact .cons ⟨⟨scaled_scale hs _, scaled_scale hs' _⟩, scaled_scale ht _⟩ ih

/-! ### Windows -/

/-- **C99** Rolling sum, means, moments and variances; the immediate rolling mean branches on the sign of a difference, so a
negative factor needs a rounding that treats both signs alike. -/
theorem C99_rolling (hs : R.Exact s) (ho : 0 < s ∨ R.Odd) (kind : RollMeanKind) (N M : ℕ) (xs : List (Fl R)) :
    let a := rollRun kind N 0 xs
    let b := rollRun kind N 0 (xs.map (Fl.scale s))
    b.sum = Fl.scale s <$> a.sum ∧ b.mean kind = Fl.scale s <$> a.mean kind ∧
    rollingMomentResult b.b (b.moment M) = Fl.scale (s ^ M) <$> rollingMomentResult a.b (a.moment M) ∧
    lazyRollingVarianceResult b.b (rollingMomentResult b.b (b.moment 2)) (b.mean kind)
      = Fl.scale (s ^ 2) <$> lazyRollingVarianceResult a.b (rollingMomentResult a.b (a.moment 2)) (a.mean kind) ∧
    b.var.result b.b = Fl.scale (s ^ 2) <$> a.var.result a.b := by
  have h := rollRel_rollRun hs ho kind N (forall₂_map_scale hs xs)
  exact ⟨h.sum.eq_map hs, (h.mean hs kind).eq_map hs, (h.momentResult hs M).eq_map (hs.pow M),
    (h.lazyVariance hs kind).eq_map (hs.pow 2), (h.variance hs).eq_map (hs.pow 2)⟩

/-! ### Quantiles and histograms -/

/-- The same calls with samples in other units. -/
def Op.mapPush {X Q : Type} (f : X → X) : Op X Q → Op X Q
  | .push x => .push (f x)
  | .query q => .query q

theorem forall₂_mapPush {X Q : Type} {q : X → X → Prop} {f : X → X} {h : List (Op X Q)} (hq : ∀ x ∈ pushes h, q x (f x)) :
    List.Forall₂ (Op.Rel q) h (h.map (Op.mapPush f)) := by
  induction h with
  | nil => exact .nil
  | cons o h ih =>
    cases o with
    | push x => exact .cons (hq x (by simp [pushes])) (ih fun y hy => hq y (by simp [pushes, hy]))
    | query k => exact .cons rfl (ih fun y hy => hq y (by simpa [pushes] using hy))

theorem eq_map_of_forall₂ {α β : Type} {r : α → β → Prop} {f : α → β} (hr : ∀ a b, r a b → b = f a) {l : List α} {m : List β}
    (h : List.Forall₂ r l m) : m = l.map f := by
  induction h with
  | nil => rfl
  | cons a _ ih => rw [List.map_cons, ih, hr _ _ a]

theorem HistRel.eq (hs : R.Exact s) {a b : List (Fl R × Res (Fl R))} (h : HistRel s a b) :
    b = a.map fun p => (Fl.scale s p.1, p.2) :=
  eq_map_of_forall₂ (fun _ _ h => Prod.ext (h.1.eq hs) h.2.symm) h

/-- **C99** The P-square quantile and median, the extended P-square quantiles, also interpolated, the cumulative distribution
and its median, after any history of pushes and extractions, for a positive factor: the heights are multiplied, the
probabilities stay, and the outcome (a number, NaN, an exception, undefined) is the same. -/
theorem C99_psquare (hs : R.Exact s) (h0 : 0 < s) (p : Fl R) (b : ℕ) (ps : List (Fl R)) (h : List (Op (Fl R) Unit)) :
    let h' := h.map (Op.mapPush (Fl.scale s))
    (psqQuantileSet p).answer h' () = Fl.scale s <$> (psqQuantileSet p).answer h () ∧
    medianSet.answer h' () = Fl.scale s <$> medianSet.answer h () ∧
    (epsqSet ps).answer h' () = List.map (Fl.scale s) <$> (epsqSet ps).answer h () ∧
    (psqCumulSet b).answer h' () = List.map (fun q => (Fl.scale s q.1, q.2)) <$> (psqCumulSet b).answer h () ∧
    (cmedianSet b).answer h' () = Fl.scale s <$> (cmedianSet b).answer h () := by
  have hh : List.Forall₂ (Op.Rel (Scaled s)) h (h.map (Op.mapPush (Fl.scale s))) :=
    forall₂_mapPush fun x _ => scaled_scale hs x
  exact ⟨(scaled_psqQuantileSet hs h0 p hh).eq_map hs, (scaled_psqQuantileSet hs h0 _ hh).eq_map hs,
    (scaled_epsqSet hs h0 ps hh).map_eq fun _ _ h => eq_map_of_forall₂ (fun _ _ h => h.eq hs) h,
    (scaled_psqCumulSet hs h0 b hh).map_eq fun _ _ h => h.eq hs, (scaled_cmedianSet hs h0 b hh).eq_map hs⟩

/-- **C99** The interpolated extended P-square quantile. -/
theorem C99_interpolated (hs : R.Exact s) (h0 : 0 < s) (kind : Interp) (nan : Bool) (ps : List (Fl R)) (p : Fl R)
    (h : List (Op (Fl R) (Fl R))) :
    (epsqQuantileSet kind nan ps).answer (h.map (Op.mapPush (Fl.scale s))) p
      = (fun r => Fl.scale s <$> r) <$> (epsqQuantileSet kind nan ps).answer h p :=
  (scaled_epsqQuantileSet hs h0 kind nan ps (forall₂_mapPush fun x _ => scaled_scale hs x) p).map_eq fun _ _ h => h.eq_map hs

/-- **C99** The weighted P-square estimators; the weights stay as they are. -/
theorem C99_weighted_psquare (hs : R.Exact s) (h0 : 0 < s) (p : Fl R) (b : ℕ) (ps : List (Fl R))
    (h : List (Op (Fl R × Fl R) Unit)) :
    let h' := h.map (Op.mapPush fun x => (Fl.scale s x.1, x.2))
    (wpsqQuantileSet p).answer h' () = Fl.scale s <$> (wpsqQuantileSet p).answer h () ∧
    wmedianSet.answer h' () = Fl.scale s <$> wmedianSet.answer h () ∧
    (wepsqSet ps).answer h' () = List.map (Fl.scale s) <$> (wepsqSet ps).answer h () ∧
    (wpsqCumulSet b).answer h' () = List.map (fun q => (Fl.scale s q.1, q.2)) <$> (wpsqCumulSet b).answer h () := by
  have hh : List.Forall₂ (Op.Rel (PairRel s)) h (h.map (Op.mapPush fun x => (Fl.scale s x.1, x.2))) :=
    forall₂_mapPush fun x _ => ⟨scaled_scale hs x.1, rfl⟩
  exact ⟨(scaled_wpsqQuantileSet hs h0 p hh).eq_map hs, (scaled_wpsqQuantileSet hs h0 _ hh).eq_map hs,
    (scaled_wepsqSet hs h0 ps hh).map_eq fun _ _ h => eq_map_of_forall₂ (fun _ _ h => h.eq hs) h,
    (scaled_wpsqCumulSet hs h0 b hh).map_eq fun _ _ h => h.eq hs⟩

/-- **C99** The interpolated weighted quantile. -/
theorem C99_weighted_interpolated (hs : R.Exact s) (h0 : 0 < s) (kind : Interp) (nan : Bool) (ps : List (Fl R)) (p : Fl R)
    (h : List (Op (Fl R × Fl R) (Fl R))) :
    (wepsqQuantileSet kind nan ps).answer (h.map (Op.mapPush fun x => (Fl.scale s x.1, x.2))) p
      = (fun r => Fl.scale s <$> r) <$> (wepsqQuantileSet kind nan ps).answer h p := by
  have hh : List.Forall₂ (Op.Rel (PairRel s)) h (h.map (Op.mapPush fun x => (Fl.scale s x.1, x.2))) :=
    forall₂_mapPush fun x _ => ⟨scaled_scale hs x.1, rfl⟩
  exact (scaled_wepsqQuantileSet hs h0 kind nan ps hh p).map_eq fun _ _ h => h.eq_map hs

/-- **C99** The histogram and its median: the bins move with the units, every sample stays in its bin.  `lo` and `hi` are the
limits of the type, and the samples lie within them in both units. -/
theorem C99_density (hs : R.Exact s) (h0 : 0 < s) (lo hi : Fl R) (c n : ℕ) (h : List (Op (Fl R) Unit))
    (hr : ∀ x ∈ pushes h, (lo ≤ x ∧ x ≤ hi) ∧ (lo ≤ Fl.scale s x ∧ Fl.scale s x ≤ hi)) :
    let h' := h.map (Op.mapPush (Fl.scale s))
    (densitySet lo hi c n 0).answer h' () = List.map (fun q => (Fl.scale s q.1, q.2)) <$> (densitySet lo hi c n 0).answer h () ∧
    (dmedianSet lo hi c n 0).answer h' () = Fl.scale s <$> (dmedianSet lo hi c n 0).answer h () := by
  have hh : List.Forall₂ (Op.Rel (InRange s lo hi)) h (h.map (Op.mapPush (Fl.scale s))) :=
    forall₂_mapPush fun x hx => ⟨scaled_scale hs x, hr x hx⟩
  exact ⟨(scaled_densitySet hs h0 lo hi c n hh).map_eq fun _ _ h => h.eq hs, (scaled_dmedianSet hs h0 lo hi c n hh).eq_map hs⟩

/-- **C99** The weighted histogram. -/
theorem C99_weighted_density (hs : R.Exact s) (h0 : 0 < s) (lo hi : Fl R) (c n : ℕ) (h : List (Op (Fl R × Fl R) Unit))
    (hr : ∀ x ∈ pushes h, (lo ≤ x.1 ∧ x.1 ≤ hi) ∧ (lo ≤ Fl.scale s x.1 ∧ Fl.scale s x.1 ≤ hi)) :
    (wdensitySet lo hi c n 0).answer (h.map (Op.mapPush fun x => (Fl.scale s x.1, x.2))) ()
      = List.map (fun q => (Fl.scale s q.1, q.2)) <$> (wdensitySet lo hi c n 0).answer h () := by
  have hh : List.Forall₂ (Op.Rel fun p q => InRange s lo hi p.1 q.1 ∧ p.2 = q.2) h
      (h.map (Op.mapPush fun x => (Fl.scale s x.1, x.2))) :=
    forall₂_mapPush fun x hx => ⟨⟨scaled_scale hs x.1, hr x hx⟩, rfl⟩
  exact (scaled_wdensitySet hs h0 lo hi c n hh).map_eq fun _ _ h => h.eq hs

/-! ### Other factors -/

/-- **C99, other factors** A factor that is not a power of two is not exact: `0.1 + 0.2`, ten times, is not `1 + 2`. -/
theorem C99_ten_fails :
    let xs : List (Fl double) := [Fl.ofK double (1 / 10), Fl.ofK double (1 / 5)]
    xs.map (Fl.scale 10) = [1, 2] ∧ sumRun id 0 (xs.map (Fl.scale 10)) = 3 ∧
    Fl.scale 10 (sumRun id 0 xs) ≠ 3 := by
  decide +kernel

/-! ### Non-vacuity -/

/-- The correctly rounded square root follows every exact factor. -/
theorem rootScales_real {R : Rounding ℝ} {s : ℝ} (hs : R.Exact |s|) :
    RootScales (R := R) (fun x => if x.val < 0 then .nonfinite else .val (Fl.ofK R (Real.sqrt x.val))) s := by
  intro x y h
  have h2 : 0 < s ^ 2 := by have := abs_ne_zero.1 hs.1; positivity
  have c : y.val < 0 ↔ x.val < 0 := by rw [h, mul_neg_iff]; constructor
                                       · rintro (⟨_, h⟩ | ⟨h, _⟩)
                                         · exact h
                                         · linarith
                                       · exact fun h => .inl ⟨h2, h⟩
  simp only [c]
  split_ifs with d
  · trivial
  · show Scaled _ _ _
    unfold Scaled
    rw [Fl.val_ofK, Fl.val_ofK, h, Real.sqrt_mul h2.le, Real.sqrt_sq_eq_abs, hs.2]

/-- A square root of a binary format that follows powers of two: the root, truncated. -/
def truncRoot (p : ℕ) (hp : 0 < p) (x : Fl (nearest p hp)) : Res (Fl (nearest p hp)) :=
  if x.val < 0 then .nonfinite
  else if x.val = 0 then .val 0
  else .val (Fl.ofK _ ((Nat.sqrt ⌊x.val / 4 ^ (expo x.val / 2 - p + 1)⌋.toNat : ℚ) * 2 ^ (expo x.val / 2 - p + 1)))

theorem rootScales_truncRoot (p : ℕ) (hp : 0 < p) (k : ℤ) : RootScales (truncRoot p hp) (2 ^ k) := by
  intro x y h
  have h2 : (0 : ℚ) < 2 ^ k := by positivity
  rw [abs_of_pos h2]
  unfold truncRoot
  have h : y.val = (2 ^ k) ^ 2 * x.val := h
  have c1 : y.val < 0 ↔ x.val < 0 := by
    rw [h]
    constructor
    · intro d
      by_contra e
      exact absurd d (not_lt.2 (mul_nonneg (by positivity) (not_lt.1 e)))
    · exact fun d => mul_neg_of_pos_of_neg (by positivity) d
  have c2 : y.val = 0 ↔ x.val = 0 := by rw [h, mul_eq_zero, or_iff_right (by positivity)]
  simp only [c1, c2]
  split_ifs with d1 d2
  · trivial
  · exact Scaled.zero
  · have hx : 0 < x.val := lt_of_le_of_ne (not_lt.1 d1) (Ne.symm d2)
    have e2 : ((2 : ℚ) ^ k) ^ 2 = 2 ^ (2 * k) := by rw [← zpow_natCast, ← zpow_mul]; congr 1; push_cast; ring
    have e : expo y.val / 2 = k + expo x.val / 2 := by rw [h, e2, expo_two_zpow_mul _ hx]; omega
    show Scaled _ _ _
    unfold Scaled
    rw [Fl.val_ofK, Fl.val_ofK, ← (C99_factors p hp k).1.2, e]
    congr 1
    have e3 : y.val / 4 ^ (k + expo x.val / 2 - p + 1) = x.val / 4 ^ (expo x.val / 2 - p + 1) := by
      rw [h, e2, show (k + expo x.val / 2 - p + 1 : ℤ) = k + (expo x.val / 2 - p + 1) by ring, zpow_add₀ (by norm_num),
        show (4 : ℚ) ^ k = 2 ^ (2 * k) by rw [zpow_mul]; norm_num, mul_div_mul_left _ _ (by positivity)]
    have e4 : (2 : ℚ) ^ (k + expo x.val / 2 - p + 1) = 2 ^ k * 2 ^ (expo x.val / 2 - p + 1) := by
      rw [← zpow_add₀ (by norm_num)]
      congr 1
      ring
    rw [e3, e4, mul_left_comm]

example : RootScales (truncRoot 53 (by norm_num)) (2 ^ (10 : ℤ)) := rootScales_truncRoot 53 (by norm_num) 10

/-- Bytes and kibibytes. -/
example :
    let xs : List (Fl double) := [Fl.ofK double (1 / 10), Fl.ofK double (1 / 5), Fl.ofK double (7 / 10), 5]
    let f := Fl.scale (R := double) (2 ^ (10 : ℤ))
    sumRun id 0 (xs.map f) = f (sumRun id 0 xs) ∧
    varianceRun (immMean 0) 0 (xs.map f) = Fl.scale ((2 ^ (10 : ℤ)) ^ 2) <$> varianceRun (immMean 0) 0 xs ∧
    kurtosisRun (lazyMean 0) (xs.map f) = kurtosisRun (lazyMean 0) xs ∧
    (varianceRun (immMean 0) 0 xs ≠ .nonfinite ∧ varianceRun (immMean 0) 0 xs ≠ .val 0) :=
  ⟨(C99_sum (C99_factors 53 (by norm_num) 10).1 _).1, (C99_variance (C99_factors 53 (by norm_num) 10).1 _ (.inr rfl) _).2,
    C99_kurtosis (C99_factors 53 (by norm_num) 10).1 _ (.inl rfl) _, by decide +kernel⟩

/-- The error of the mean, with the truncated root. -/
example :
    let f := Fl.scale (R := double) (2 ^ (3 : ℤ))
    let xs : List (Fl double) := [1, 2, 4, Fl.ofK double (7 / 10)]
    errorOfMeanRunWith (truncRoot 53 (by norm_num)) 64 (lazyMean 0) (xs.map f)
      = f <$> errorOfMeanRunWith (truncRoot 53 (by norm_num)) 64 (lazyMean 0) xs ∧
    errorOfMeanRunWith (truncRoot 53 (by norm_num)) 64 (lazyMean 0) xs ≠ .nonfinite :=
  ⟨(C99_root (C99_factors 53 (by norm_num) 3).1 (by positivity) (rootScales_truncRoot 53 (by norm_num) 3) 64 _ (.inl rfl) _).2.1,
    by decide +kernel⟩

/-- The median, extracted in between, of samples halved. -/
example :
    let f := Fl.scale (R := double) (2 ^ (-1 : ℤ))
    let h : List (Op (Fl double) Unit) := [.push 5, .push 3, .push 1, .query (), .push 2, .push 4, .push 7, .push 6]
    medianSet.answer (h.map (Op.mapPush f)) () = f <$> medianSet.answer h () :=
  (C99_psquare (C99_factors 53 (by norm_num) (-1)).1 (by positivity) 0 0 [] _).2.1

/-- A histogram. -/
example :
    let f := Fl.scale (R := double) (2 ^ (-1 : ℤ))
    let h : List (Op (Fl double) Unit) := [.push 5, .push 3, .push 1, .push 2]
    (densitySet (-100) 100 3 2 0).answer (h.map (Op.mapPush f)) ()
      = List.map (fun q => (f q.1, q.2)) <$> (densitySet (-100) 100 3 2 0).answer h () ∧
    (densitySet (-100) 100 3 2 0).answer h () = .val [(-1, .val 0), (1, .val (2 / 4)), (3, .val (1 / 4)), (5, .val (1 / 4))] := by
  refine ⟨(C99_density (C99_factors 53 (by norm_num) (-1)).1 (by positivity) _ _ 3 2 _ ?_).1, ?_⟩ <;> decide +kernel

end Acc
