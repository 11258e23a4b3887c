import Verif.Props.Nonfinite
import Verif.Props.Weighted

/-!
# C90: infinite and NaN samples and weights in the weighted statistics

The models of `Model/Weighted.lean` run on numbers with infinities and NaN (`Ext F`).
-/

set_option linter.unusedSectionVars false

namespace Acc

open Ext Spec

section
variable {A : Type} [Arith A] [DecidableEq A]

theorem wvarianceSt_run (P : MeanProvider (A × A) A) (x0 : A) (ps : List (A × A)) :
    (ps.foldl (WVarianceSt.push P) ⟨P.init, 0, 0, fdiv x0 1⟩).m = P.run ps ∧
      (ps.foldl (WVarianceSt.push P) ⟨P.init, 0, 0, fdiv x0 1⟩).cnt = ps.length ∧
      (ps.foldl (WVarianceSt.push P) ⟨P.init, 0, 0, fdiv x0 1⟩).sumW = sumRun id 0 (ps.map Prod.snd) := by
  induction ps using List.reverseRecOn with
  | nil => exact ⟨rfl, rfl, rfl⟩
  | append_singleton xs x ih =>
    rw [List.foldl_append, MeanProvider.run, List.foldl_append, List.length_append, List.map_append, sumRun,
      List.foldl_append]
    exact ⟨congrArg (P.push · x) ih.1, congrArg (· + 1) ih.2.1, congrArg (sumStep · x.2) ih.2.2⟩

theorem wvarianceRun_concat (P : MeanProvider (A × A) A) (x0 : A) (ps : List (A × A)) (p : A × A) :
    weightedVarianceRun P x0 (ps ++ [p])
      = weightedVarianceStep (ps.length + 1) (sumRun id 0 ((ps ++ [p]).map Prod.snd)) (P.read (P.run (ps ++ [p])))
        (weightedVarianceRun P x0 ps) p := by
  have h := wvarianceSt_run P x0 ps
  have h' := wvarianceSt_run P x0 (ps ++ [p])
  rw [← h'.2.2, ← h'.1, ← h.2.1]
  unfold weightedVarianceRun
  rw [List.foldl_append]
  rfl

theorem wcovSt_run (P Q : MeanProvider (A × A) A) (ps : List ((A × A) × A)) :
    (ps.foldl (WCovSt.push P Q) ⟨P.init, Q.init, 0, 0, .val 0⟩).mx = P.run (ps.map fun p => (p.1.1, p.2)) ∧
    (ps.foldl (WCovSt.push P Q) ⟨P.init, Q.init, 0, 0, .val 0⟩).my = Q.run (ps.map fun p => (p.1.2, p.2)) ∧
    (ps.foldl (WCovSt.push P Q) ⟨P.init, Q.init, 0, 0, .val 0⟩).cnt = ps.length ∧
    (ps.foldl (WCovSt.push P Q) ⟨P.init, Q.init, 0, 0, .val 0⟩).sumW = sumRun id 0 (ps.map Prod.snd) := by
  induction ps using List.reverseRecOn with
  | nil => exact ⟨rfl, rfl, rfl, rfl⟩
  | append_singleton xs x ih =>
    rw [List.foldl_append, MeanProvider.run, MeanProvider.run, List.map_append, List.map_append, List.map_append,
      List.foldl_append, List.foldl_append, List.length_append, sumRun, List.foldl_append]
    exact ⟨congrArg (P.push · _) ih.1, congrArg (Q.push · _) ih.2.1, congrArg (· + 1) ih.2.2.1,
      congrArg (sumStep · x.2) ih.2.2.2⟩

theorem wcovRun_concat (P Q : MeanProvider (A × A) A) (ps : List ((A × A) × A)) (p : (A × A) × A) :
    weightedCovarianceRun P Q (ps ++ [p])
      = weightedCovarianceStep (ps.length + 1) (sumRun id 0 ((ps ++ [p]).map Prod.snd))
        (P.read (P.run ((ps ++ [p]).map fun p => (p.1.1, p.2)))) (Q.read (Q.run ((ps ++ [p]).map fun p => (p.1.2, p.2))))
        (weightedCovarianceRun P Q ps) p.1.1 p.1.2 p.2 := by
  have h := wcovSt_run P Q ps
  have h' := wcovSt_run P Q (ps ++ [p])
  rw [← h'.1, ← h'.2.1, ← h'.2.2.2, ← h.2.2.1]
  unfold weightedCovarianceRun
  rw [List.foldl_append]
  rfl

theorem lazyWMean_sums (x0 : A) (ps : List (A × A)) :
    (lazyWMean x0).run ps = ⟨sumRun id 0 (ps.map Prod.snd), weightedSumRun x0 ps⟩ := by
  induction ps using List.reverseRecOn with
  | nil => rfl
  | append_singleton xs x ih =>
    rw [MeanProvider.run, List.foldl_append, List.map_append, sumRun, List.foldl_append, weightedSumRun,
      List.foldl_append]
    exact congrArg ((lazyWMean x0).push · x) ih

theorem immWMean_sumW (x0 : A) (ps : List (A × A)) : ((immWMean x0).run ps).sumW = sumRun id 0 (ps.map Prod.snd) := by
  induction ps using List.reverseRecOn with
  | nil => rfl
  | append_singleton xs x ih =>
    rw [MeanProvider.run, List.foldl_append, List.map_append, sumRun, List.foldl_append]
    exact congrArg (sumStep · x.2) ih

theorem immWMean_concat (x0 : A) (ps : List (A × A)) (p : A × A) :
    ((immWMean x0).run (ps ++ [p])).mean
      = immWMeanStep (sumRun id 0 ((ps ++ [p]).map Prod.snd)) ((immWMean x0).run ps).mean p := by
  rw [← immWMean_sumW x0, MeanProvider.run, List.foldl_append]
  rfl

end

section
variable {K : Type} [Field K] [LinearOrder K] [IsStrictOrderedRing K] {F : Fmt K}

/-- Sample and weight are finite. -/
def FinPair (p : Ext F × Ext F) : Prop := IsFinite p.1 ∧ IsFinite p.2

/-- **C90** For every floating point format: if the weighted sum, the compensated weighted sum, a weighted mean, a
weighted moment, the lazy weighted variance or the weighted kurtosis is a finite number, then every sample and every
weight was. -/
theorem C90_finite (x0 : Ext F) {N : ℕ} (hN : N ≠ 0) (ps : List (Ext F × Ext F)) :
    (IsFinite (weightedSumRun x0 ps) → ∀ p ∈ ps, FinPair p) ∧
    (IsFinite (weightedKahanRun x0 ps).sum → ∀ p ∈ ps, FinPair p) ∧
    (IsFin ((lazyWMean x0).read ((lazyWMean x0).run ps)) → ∀ p ∈ ps, FinPair p) ∧
    (IsFin ((immWMean x0).read ((immWMean x0).run ps)) → ∀ p ∈ ps, FinPair p) ∧
    (IsFin (weightedMomentRun N x0 ps) → ∀ p ∈ ps, FinPair p) ∧
    (∀ P : MeanProvider (Ext F × Ext F) (Ext F), IsFin (lazyWeightedVarianceRun P ps) → ∀ p ∈ ps, FinPair p) ∧
    (∀ P : MeanProvider (Ext F × Ext F) (Ext F), IsFin (weightedKurtosisRun P ps) → ∀ p ∈ ps, FinPair p) := by
  have hs : IsFinite (weightedSumRun x0 ps) → ∀ p ∈ ps, FinPair p := fun h =>
    (foldl_fin IsFinite weightedSumStep FinPair (fun s a h => ⟨(fin_add h).1, fin_mul (fin_add h).2⟩) ps _ h).2
  have hm : ∀ N, N ≠ 0 → ∀ x0, IsFin (weightedMomentRun N x0 ps) → ∀ p ∈ ps, FinPair p := by
    intro N hN x0 h
    have h := (isFin_fdiv h).1
    refine (foldl_fin (fun s : WMomentSt (Ext F) => IsFinite s.sum) (WMomentSt.push N) FinPair ?_ ps _ h).2
    intro s a h
    have := fin_add h
    exact ⟨this.1, fin_mpow hN (fin_mul this.2).2, (fin_mul this.2).1⟩
  refine ⟨hs, ?_, ?_, ?_, hm N hN x0, ?_, ?_⟩
  · intro h
    refine (foldl_fin (fun s : Kahan (Ext F) => IsFinite s.sum) weightedKahanStep FinPair ?_ ps _ h).2
    intro s a h
    have := fin_add h
    exact ⟨this.1, fin_mul (fin_sub this.2).1⟩
  · intro h
    rw [lazyWMean_sums] at h
    exact hs (isFin_fdiv h).1
  · intro h
    refine (foldl_fin (fun s : WMean (Ext F) => IsFin s.mean) (immWMean x0).push FinPair ?_ ps _ h).2
    intro s a h
    obtain ⟨m, hm, h⟩ := isFin_bind (show IsFin (s.mean >>= _) from h)
    have := fin_add (isFin_fdiv h).1
    refine ⟨?_, fin_mul this.2⟩
    rw [hm]
    exact isFin_val.2 (fin_mul this.1).1
  · intro P h
    obtain ⟨m, -, h⟩ := isFin_bind h
    obtain ⟨m2, h2, h⟩ := isFin_bind h
    have := fin_sub (isFin_val.1 h)
    exact hm 2 (by omega) 0 (by rw [h2]; exact isFin_val.2 this.1)
  · intro P h
    obtain ⟨m4, h4, h⟩ := isFin_bind h
    obtain ⟨m3, h3, h⟩ := isFin_bind h
    obtain ⟨m2, h2, h⟩ := isFin_bind h
    obtain ⟨m, hm', h⟩ := isFin_bind h
    obtain ⟨q, hq, h⟩ := isFin_bind h
    have h1 := (fin_sub (isFin_val.1 h)).1
    have h5 := (isFin_fdiv (by rw [hq]; exact isFin_val.2 h1)).1
    have h6 := (fin_sub (fin_add (fin_sub h5).1).1).1
    exact hm 4 (by omega) 0 (by rw [h4]; exact isFin_val.2 h6)

theorem fin_wmean {P : MeanProvider (Ext F × Ext F) (Ext F)} {x0 : Ext F} (hP : P = lazyWMean x0 ∨ P = immWMean x0)
    (ps : List (Ext F × Ext F)) (h : IsFin (P.read (P.run ps))) : ∀ p ∈ ps, FinPair p := by
  have := C90_finite x0 one_ne_zero ps
  rcases hP with rfl | rfl
  · exact this.2.2.1 h
  · exact this.2.2.2.1 h

/-- **C90** The same for the weighted variance by recursion and the weighted covariance, from the second sample on. -/
theorem C90_finite_second (x0 y0 : Ext F) (P Q : MeanProvider (Ext F × Ext F) (Ext F)) (ps : List (Ext F × Ext F))
    (qs : List ((Ext F × Ext F) × Ext F)) (hP : P = lazyWMean x0 ∨ P = immWMean x0)
    (hQ : Q = lazyWMean y0 ∨ Q = immWMean y0) :
    (2 ≤ ps.length → IsFin (weightedVarianceRun P 0 ps) → ∀ p ∈ ps, FinPair p) ∧
    (2 ≤ qs.length → IsFin (weightedCovarianceRun P Q qs) →
      ∀ q ∈ qs, IsFinite q.1.1 ∧ IsFinite q.1.2 ∧ IsFinite q.2) := by
  refine ⟨?_, ?_⟩
  · intro hl h
    obtain ⟨ys, y, rfl, hy⟩ := concat_of_length hl
    rw [wvarianceRun_concat, weightedVarianceStep, if_pos (by omega)] at h
    obtain ⟨m, hm, h⟩ := isFin_bind h
    obtain ⟨v, hv, h⟩ := isFin_bind h
    obtain ⟨a, ha, h⟩ := isFin_bind h
    obtain ⟨b, hb, h⟩ := isFin_bind h
    have h1 := (fin_add (isFin_val.1 h)).2
    have h2 := (isFin_fdiv (by rw [hb]; exact isFin_val.2 h1)).1
    have h3 := fin_sub (fin_mul (fin_mul h2).1).1
    exact fin_wmean hP _ (by rw [hm]; exact isFin_val.2 h3.2)
  · intro hl h
    obtain ⟨ys, y, rfl, hy⟩ := concat_of_length hl
    rw [wcovRun_concat, weightedCovarianceStep, if_pos (by omega)] at h
    obtain ⟨c, hc, h⟩ := isFin_bind h
    obtain ⟨a, ha, h⟩ := isFin_bind h
    obtain ⟨my, hmy, h⟩ := isFin_bind h
    obtain ⟨mx, hmx, h⟩ := isFin_bind h
    obtain ⟨b, hb, h⟩ := isFin_bind h
    have h1 := (fin_add (isFin_val.1 h)).2
    have h2 := fin_mul (fin_mul (isFin_fdiv (by rw [hb]; exact isFin_val.2 h1)).1).1
    have hx := fin_wmean hP _ (by rw [hmx]; exact isFin_val.2 (fin_sub h2.2).1)
    have hy := fin_wmean hQ _ (by rw [hmy]; exact isFin_val.2 (fin_sub h2.1).1)
    intro q hq
    have h3 := hx _ (List.mem_map_of_mem hq)
    exact ⟨h3.1, (hy _ (List.mem_map_of_mem hq)).1, h3.2⟩

/-- Not a number: NaN, or (when the weights add up to 0) a division by zero. -/
def IsNaN (r : Res (Ext F)) : Prop := r = .val nan ∨ r = .nonfinite

theorem isNaN_fdiv {a : Ext F} (h : a = nan) (b : Ext F) : IsNaN (fdiv a b) := by
  unfold fdiv
  split_ifs
  · exact .inr rfl
  · exact .inl (by rw [h, nan_div])

/-- The immediate weighted mean has a value or is a division by zero. -/
theorem immWMean_outcome (x0 : Ext F) (ps : List (Ext F × Ext F)) :
    (∃ m, ((immWMean x0).run ps).mean = .val m) ∨ ((immWMean x0).run ps).mean = .nonfinite := by
  induction ps using List.reverseRecOn with
  | nil =>
    show (∃ m, fdiv (x0 * 1) 1 = _) ∨ fdiv (x0 * 1) 1 = _
    unfold fdiv
    split_ifs
    · exact .inr rfl
    · exact .inl ⟨_, rfl⟩
  | append_singleton ps p ih =>
    rw [immWMean_concat]
    rcases ih with ⟨m, hm⟩ | hm
    · rw [hm, immWMeanStep, Res.val_bind, fdiv]
      split_ifs
      · exact .inr rfl
      · exact .inl ⟨_, rfl⟩
    · rw [hm]
      exact .inr rfl

/-- **C90** For every floating point format: a NaN among the samples, whatever its weight, makes the weighted sum and the
compensated weighted sum NaN and the weighted means and moments and the lazy weighted variance not a number, for
ever. -/
theorem C90_nan (x0 : Ext F) {N : ℕ} (hN : N ≠ 0) {ps : List (Ext F × Ext F)} {w : Ext F} (h : (nan, w) ∈ ps) :
    weightedSumRun x0 ps = nan ∧
    (weightedKahanRun x0 ps).sum = nan ∧
    IsNaN (weightedMomentRun N x0 ps) ∧
    ∀ P, P = lazyWMean x0 ∨ P = immWMean x0 →
      IsNaN (P.read (P.run ps)) ∧ IsNaN (lazyWeightedVarianceRun P ps) := by
  have hs : weightedSumRun x0 ps = nan :=
    foldl_absorb weightedSumStep (fun s => s = nan) (nan, w) (fun s => by simp [weightedSumStep])
      (fun s b hs => by simp [weightedSumStep, hs]) ps h _
  have hM : ∀ N, N ≠ 0 → ∀ x0, IsNaN (weightedMomentRun N x0 ps) := by
    intro N hN x0
    refine isNaN_fdiv ?_ _
    refine foldl_absorb (WMomentSt.push N) (fun s => s.sum = nan) (nan, w) ?_ ?_ ps h _
    · intro s
      show s.sum + w * mpow nan N = nan
      rw [mpow_nan hN, mul_nan, add_nan]
    · intro s b hs
      show s.sum + _ = nan
      rw [hs, nan_add]
  have hP : ∀ P : MeanProvider (Ext F × Ext F) (Ext F), P = lazyWMean x0 ∨ P = immWMean x0 →
      IsNaN (P.read (P.run ps)) := by
    rintro P (rfl | rfl)
    · rw [lazyWMean_sums]
      exact isNaN_fdiv hs _
    · show IsNaN ((immWMean x0).run ps).mean
      clear hs hM
      induction ps using List.reverseRecOn with
      | nil => simp at h
      | append_singleton ps p ih =>
        rw [immWMean_concat]
        rcases List.mem_append.1 h with h | h
        · rcases ih h with e | e <;> rw [e]
          · exact isNaN_fdiv (by simp) _
          · exact .inr rfl
        · rw [List.mem_singleton] at h
          subst h
          rcases immWMean_outcome x0 ps with ⟨m, hm⟩ | hm
          · rw [hm]
            exact isNaN_fdiv (by simp) _
          · rw [hm]
            exact .inr rfl
  refine ⟨hs, ?_, hM N hN x0, fun P hP' => ⟨hP P hP', ?_⟩⟩
  · refine foldl_absorb weightedKahanStep (fun s : Kahan (Ext F) => s.sum = nan) (nan, w) ?_ ?_ ps h _
    · intro s
      show s.sum + (nan * w - _) = nan
      simp
    · intro s b hs
      show s.sum + _ = nan
      rw [hs, nan_add]
  · rw [lazyWeightedVarianceRun, lazyVarianceResult]
    rcases hP P hP' with e | e <;> rw [e]
    · rcases hM 2 (by omega) 0 with e | e <;> rw [e]
      · exact .inl (by simp)
      · exact .inr rfl
    · exact .inr rfl

theorem div_nonfinite {a b : Ext F} (ha : ¬ IsFinite a) (hb : ¬ IsFinite b) : a / b = nan := by
  rw [div_def]
  cases a <;> cases b <;> simp_all [div]

theorem ne_zero_of_nonfinite {a : Ext F} (ha : ¬ IsFinite a) : a ≠ 0 := by
  rintro rfl
  exact ha trivial

theorem sum_nonfinite (x0 : Ext F) {xs : List (Ext F)} {x : Ext F} (h : x ∈ xs) (hx : ¬ IsFinite x) :
    ¬ IsFinite (sumRun id x0 xs) := fun hf => hx (((C76_finite x0 one_ne_zero xs).1 hf).2 x h)

/-- **C90** For every floating point format: one weight that is infinite or NaN makes both weighted means NaN for ever. -/
theorem C90_infinite_weight (x0 : Ext F) (P : MeanProvider (Ext F × Ext F) (Ext F))
    (hP : P = lazyWMean x0 ∨ P = immWMean x0) {ps : List (Ext F × Ext F)} {x w : Ext F}
    (h : (x, w) ∈ ps) (hw : ¬ IsFinite w) : IsNaN (P.read (P.run ps)) := by
  have hW : ∀ ps : List (Ext F × Ext F), (x, w) ∈ ps → ¬ IsFinite (sumRun id 0 (ps.map Prod.snd)) := fun ps h =>
    sum_nonfinite 0 (List.mem_map.2 ⟨_, h, rfl⟩) hw
  rcases hP with rfl | rfl
  · rw [lazyWMean_sums]
    have h1 : ¬ IsFinite (weightedSumRun x0 ps) := fun hf => hw ((C90_finite x0 one_ne_zero ps).1 hf _ h).2
    refine .inl ?_
    show fdiv _ _ = _
    rw [fdiv, if_neg (ne_zero_of_nonfinite (hW ps h)), div_nonfinite h1 (hW ps h)]
  · show IsNaN ((immWMean x0).run ps).mean
    induction ps using List.reverseRecOn with
    | nil => simp at h
    | append_singleton ps p ih =>
      rw [immWMean_concat]
      by_cases hm : (x, w) ∈ ps
      · rcases ih hm with e | e <;> rw [e]
        · exact isNaN_fdiv (by simp) _
        · exact .inr rfl
      · have hp : p = (x, w) := by simpa [hm, eq_comm] using h
        subst hp
        rcases immWMean_outcome x0 ps with ⟨m, e⟩ | e <;> rw [e]
        · refine isNaN_fdiv ?_ _
          have : sumRun id 0 ((ps ++ [(x, w)]).map Prod.snd) - w = nan := by
            rw [List.map_append, sumRun, List.foldl_append]
            show (sumRun id 0 (ps.map Prod.snd) + w) - w = nan
            generalize sumRun id 0 (ps.map Prod.snd) = s
            cases w <;> cases s <;> first | exact absurd trivial hw | rfl
          rw [this]
          simp
        · exact .inr rfl

end

/-! ## Exact arithmetic with infinities and NaN, finite positive weights -/

section
variable {K : Type} [Field K] [LinearOrder K] [IsStrictOrderedRing K]

/-- The pairs with a finite sample. -/
def Spec.finitePairs (ps : List (Ex K × K)) : List (K × K) :=
  ps.filterMap fun
    | (fin a, w) => some (a, w)
    | _ => none

/-- The weighted mean: NaN if there is a NaN or both infinities, else infinite if there is an infinity, else the
weighted mean of the numbers. -/
def Spec.extWMean (ps : List (Ex K × K)) : Ex K :=
  if nan ∈ ps.map Prod.fst ∨ pinf ∈ ps.map Prod.fst ∧ ninf ∈ ps.map Prod.fst then nan
  else if pinf ∈ ps.map Prod.fst then pinf
  else if ninf ∈ ps.map Prod.fst then ninf
  else fin (wmean (finitePairs ps))

/-- What is pushed: samples of the format with finite weights. -/
def Spec.finWeights (ps : List (Ex K × K)) : List (Ex K × Ex K) := ps.map fun p => (p.1, fin p.2)

theorem fin_ne_zero {a : K} (h : a ≠ 0) : (fin a : Ex K) ≠ 0 := fun c => h (Ext.fin.inj c)

theorem mul_pos_fin (x : Ex K) {w : K} (hw : 0 < w) :
    x * fin w = match x with | fin a => fin (a * w) | e => e := by
  cases x with
  | fin a => exact fin_mul_fin a w
  | pinf => exact if_pos hw
  | ninf =>
    show infSign (-w) = _
    rw [infSign, if_neg (by linarith), if_pos (by linarith)]
  | nan => rfl

theorem pairWeights_sum (ps : List (Ex K × K)) :
    sumRun id 0 ((finWeights ps).map Prod.snd) = fin (ps.map Prod.snd).sum := by
  have : (finWeights ps).map Prod.snd = (ps.map Prod.snd).map (fin : K → Ex K) := by
    simp [finWeights, Function.comp_def]
  rw [this, extSum_run, extSum_fin]

theorem weightedSum_ext (ps : List (Ex K × K)) :
    weightedSumRun (0 : Ex K) (finWeights ps) = extSum (ps.map fun p => p.1 * fin p.2) := by
  induction ps using List.reverseRecOn with
  | nil =>
    show (0 : Ex K) * 1 = extSum []
    rw [zero_def, one_def, fin_mul_fin]
    simp [extSum, finites]
  | append_singleton ps p ih =>
    rw [List.map_append, List.map_singleton, extSum_concat, ← ih, weightedSumRun, finWeights, List.map_append,
      List.foldl_append]
    rfl

theorem weights_pos {ps : List (Ex K × K)} (hw : ∀ p ∈ ps, 0 < p.2) (h : ps ≠ []) : 0 < (ps.map Prod.snd).sum := by
  cases ps with
  | nil => simp at h
  | cons p ps =>
    rw [List.map_cons, List.sum_cons]
    refine add_pos_of_pos_of_nonneg (hw p (by simp)) (List.sum_nonneg fun w h => ?_)
    obtain ⟨q, hq, rfl⟩ := List.mem_map.1 h
    exact (hw q (by simp [hq])).le

/-- The sum of the products with positive weights, divided by the sum of the weights. -/
theorem extWMean_div {ps : List (Ex K × K)} (hw : ∀ p ∈ ps, 0 < p.2) (h : ps ≠ []) :
    extSum (ps.map fun p => p.1 * fin p.2) / fin (ps.map Prod.snd).sum = extWMean ps := by
  have hpos := weights_pos hw h
  have hm : ∀ e : Ex K, ¬ IsFinite e → (e ∈ (ps.map fun p => p.1 * fin p.2) ↔ e ∈ ps.map Prod.fst) := by
    intro e he
    simp only [List.mem_map]
    refine exists_congr fun p => and_congr_right fun hp => ?_
    rw [mul_pos_fin p.1 (hw p hp)]
    cases hx : p.1 with
    | fin a =>
      constructor
      · rintro rfl; exact absurd trivial he
      · rintro rfl; exact absurd trivial he
    | _ => rfl
  unfold extSum extWMean
  simp only [hm nan id, hm pinf id, hm ninf id]
  split_ifs with h1 h2 h3
  · exact nan_div _
  · exact if_neg hpos.not_gt
  · exact if_neg hpos.not_gt
  · rw [fin_div_fin _ hpos.ne']
    have hall : ∀ p ∈ ps, IsFinite p.1 := by
      intro p hp
      cases hx : p.1 with
      | fin a => trivial
      | pinf => exact absurd (List.mem_map.2 ⟨p, hp, hx⟩) h2
      | ninf => exact absurd (List.mem_map.2 ⟨p, hp, hx⟩) h3
      | nan => exact absurd (.inl (List.mem_map.2 ⟨p, hp, hx⟩)) h1
    clear h1 h2 h3 hm hpos h hw
    have e : finites (ps.map fun p => p.1 * fin p.2) = (finitePairs ps).map (fun p => p.2 * p.1) ∧
        ps.map Prod.snd = (finitePairs ps).map Prod.snd := by
      induction ps with
      | nil => exact ⟨rfl, rfl⟩
      | cons p ps ih =>
        obtain ⟨i1, i2⟩ := ih fun q hq => hall q (by simp [hq])
        obtain ⟨x, w⟩ := p
        obtain ⟨a, rfl⟩ := fin_iff.1 (hall (x, w) (by simp))
        constructor
        · rw [List.map_cons, fin_mul_fin, mul_comm]
          exact congrArg (w * a :: ·) i1
        · exact congrArg (w :: ·) i2
    rw [e.1, e.2, wmean, wtotal]

/-- **C90** In exact arithmetic with infinities and NaN and with positive finite weights both weighted means are what
the extended arithmetic says, for every stream and in every order. -/
theorem C90_mean {ps : List (Ex K × K)} (hw : ∀ p ∈ ps, 0 < p.2) (h : ps ≠ []) (P : MeanProvider (Ex K × Ex K) (Ex K))
    (hP : P = lazyWMean 0 ∨ P = immWMean 0) : P.read (P.run (finWeights ps)) = .val (extWMean ps) := by
  rcases hP with rfl | rfl
  · rw [lazyWMean_sums, pairWeights_sum, weightedSum_ext]
    show fdiv (extSum (ps.map fun p => p.1 * fin p.2)) (fin (ps.map Prod.snd).sum) = _
    rw [fdiv, if_neg (fin_ne_zero (weights_pos hw h).ne'), extWMean_div hw h]
  · show ((immWMean (0 : Ex K)).run (finWeights ps)).mean = _
    induction ps using List.reverseRecOn with
    | nil => simp at h
    | append_singleton ps p ih =>
      have hw' : ∀ q ∈ ps, 0 < q.2 := fun q hq => hw q (by simp [hq])
      have e1 : finWeights (ps ++ [p]) = finWeights ps ++ [(p.1, fin p.2)] := by simp [finWeights]
      have hpos := weights_pos hw h
      rw [e1, immWMean_concat, ← e1, pairWeights_sum, ← extWMean_div hw h]
      have key : ∃ m, ((immWMean (0 : Ex K)).run (finWeights ps)).mean = .val m ∧
          m * (fin ((ps ++ [p]).map Prod.snd).sum - fin p.2) = extSum (ps.map fun p => p.1 * fin p.2) := by
        rw [fin_sub_fin, List.map_append, List.sum_append, List.map_singleton, List.sum_singleton,
          add_sub_cancel_right]
        by_cases hx : ps = []
        · subst hx
          refine ⟨0, ?_, ?_⟩
          · show fdiv (0 * 1) 1 = _
            rw [fdiv, if_neg (by rw [one_def, zero_def]; simp), zero_def, one_def, fin_mul_fin,
              fin_div_fin _ one_ne_zero, zero_mul, zero_div]
          · rw [zero_def, fin_mul_fin]
            simp [extSum, finites]
        · refine ⟨_, ih hw' hx, ?_⟩
          have hn := weights_pos hw' hx
          rw [← extWMean_div hw' hx]
          generalize extSum (ps.map fun p => p.1 * fin p.2) = e
          cases e with
          | fin s => rw [fin_div_fin _ hn.ne', fin_mul_fin, div_mul_cancel₀ _ hn.ne']
          | pinf =>
            rw [show (pinf : Ex K) / fin (ps.map Prod.snd).sum = pinf from if_neg hn.not_gt]
            exact if_pos hn
          | ninf =>
            rw [show (ninf : Ex K) / fin (ps.map Prod.snd).sum = ninf from if_neg hn.not_gt]
            show infSign _ = _
            rw [infSign, if_neg (by linarith), if_pos (by linarith)]
          | nan => rfl
      obtain ⟨m, hm, e⟩ := key
      have e2 : ((ps ++ [p]).map fun p => p.1 * fin p.2) = (ps.map fun p => p.1 * fin p.2) ++ [p.1 * fin p.2] := by
        rw [List.map_append, List.map_singleton]
      rw [hm, e2, extSum_concat]
      show fdiv (m * (_ - fin p.2) + p.1 * fin p.2) _ = _
      rw [e, fdiv, if_neg (fin_ne_zero hpos.ne')]

theorem Ext.mul_comm' (a b : Ex K) : a * b = b * a := by
  cases a <;> cases b <;> first
    | rfl
    | rw [fin_mul_fin, fin_mul_fin, mul_comm]

/-- **C90** The weighted moments likewise: the weighted mean of the powers. -/
theorem C90_moment {ps : List (Ex K × K)} (hw : ∀ p ∈ ps, 0 < p.2) (h : ps ≠ []) (N : ℕ) :
    weightedMomentRun N 0 (finWeights ps) = .val (extWMean (ps.map fun p => (mpow p.1 N, p.2))) := by
  have hs : ∀ ps : List (Ex K × K), (finWeights ps).foldl (WMomentSt.push N) ⟨0, 0 * 1⟩
      = ⟨sumRun id 0 ((finWeights ps).map Prod.snd), weightedSumRun (0 : Ex K)
          (finWeights (ps.map fun p => (mpow p.1 N, p.2)))⟩ := by
    intro ps
    induction ps using List.reverseRecOn with
    | nil => rfl
    | append_singleton ps p ih =>
      have e1 : finWeights (ps ++ [p]) = finWeights ps ++ [(p.1, fin p.2)] := by simp [finWeights]
      have e2 : finWeights ((ps ++ [p]).map fun p => (mpow p.1 N, p.2))
          = finWeights (ps.map fun p => (mpow p.1 N, p.2)) ++ [(mpow p.1 N, fin p.2)] := by simp [finWeights]
      have e3 : weightedSumRun (0 : Ex K) (finWeights (ps.map fun p => (mpow p.1 N, p.2)) ++ [(mpow p.1 N, fin p.2)])
          = weightedSumRun 0 (finWeights (ps.map fun p => (mpow p.1 N, p.2))) + fin p.2 * mpow p.1 N := by
        rw [Ext.mul_comm', weightedSumRun, List.foldl_append]
        rfl
      rw [e1, e2, e3, List.foldl_append, ih, List.map_append, sumRun, sumRun, List.foldl_append]
      rfl
  have hw' : ∀ p ∈ ps.map fun p : Ex K × K => (mpow p.1 N, p.2), 0 < p.2 := by
    intro q hq
    obtain ⟨p, hp, rfl⟩ := List.mem_map.1 hq
    exact hw p hp
  unfold weightedMomentRun
  simp only [hs]
  rw [pairWeights_sum, weightedSum_ext, fdiv, if_neg (fin_ne_zero (weights_pos hw h).ne'),
    ← extWMean_div hw' (by simpa using h)]
  congr 3
  rw [List.map_map]
  rfl

theorem extWMean_nonfinite {ps : List (Ex K × K)} {p : Ex K × K} (hp : p ∈ ps) (hf : ¬ IsFinite p.1) :
    ¬ IsFinite (extWMean ps) := by
  have hm : p.1 ∈ ps.map Prod.fst := List.mem_map_of_mem hp
  unfold extWMean
  split_ifs with h1 h2 h3
  · simp
  · simp
  · simp
  · cases hx : p.1 with
    | fin a => rw [hx] at hf; exact absurd trivial hf
    | pinf => rw [hx] at hm; exact absurd hm h2
    | ninf => rw [hx] at hm; exact absurd hm h3
    | nan => rw [hx] at hm; exact absurd (.inl hm) h1

/-- **C90** The lazy weighted variance is NaN as soon as one sample is not finite. -/
theorem C90_lazy_variance {ps : List (Ex K × K)} (hw : ∀ p ∈ ps, 0 < p.2) (P : MeanProvider (Ex K × Ex K) (Ex K))
    (hP : P = lazyWMean 0 ∨ P = immWMean 0) {p : Ex K × K} (hp : p ∈ ps) (hf : ¬ IsFinite p.1) :
    lazyWeightedVarianceRun P (finWeights ps) = .val nan := by
  have hne : ps ≠ [] := List.ne_nil_of_mem hp
  have hsq : ∀ y : Ex K, mpow y 2 = y * y := by
    intro y
    rw [mpow, mpow]
    simp
  rw [lazyWeightedVarianceRun, C90_moment hw hne, C90_mean hw hne P hP, lazyVarianceResult]
  simp only [Res.val_bind, Res.pure_eq, Res.val.injEq]
  have h1 := extWMean_nonfinite hp hf
  by_cases hn : nan ∈ ps.map Prod.fst
  · have : extWMean ps = nan := by rw [extWMean, if_pos (.inl hn)]
    rw [this]
    simp
  have h2 : extWMean (ps.map fun p => (mpow p.1 2, p.2)) = pinf := by
    have e : (ps.map fun p : Ex K × K => (mpow p.1 2, p.2)).map Prod.fst = (ps.map Prod.fst).map fun x => x * x := by
      simp [hsq]
    have a0 : ∀ y ∈ ps.map Prod.fst, y * y ≠ nan ∧ y * y ≠ ninf := by
      intro y hy
      cases y with
      | fin a => rw [fin_mul_fin]; exact ⟨nofun, nofun⟩
      | pinf => exact ⟨nofun, nofun⟩
      | ninf => exact ⟨nofun, nofun⟩
      | nan => exact absurd hy hn
    have a3 : pinf ∈ (ps.map Prod.fst).map fun x => x * x := by
      refine List.mem_map.2 ⟨p.1, List.mem_map_of_mem hp, ?_⟩
      cases hx : p.1 with
      | fin a => rw [hx] at hf; exact absurd trivial hf
      | pinf => rfl
      | ninf => rfl
      | nan => exact absurd (List.mem_map.2 ⟨p, hp, hx⟩) hn
    have a1 : nan ∉ (ps.map Prod.fst).map fun x => x * x := by
      intro h
      obtain ⟨y, hy, c⟩ := List.mem_map.1 h
      exact (a0 y hy).1 c
    have a2 : ninf ∉ (ps.map Prod.fst).map fun x => x * x := by
      intro h
      obtain ⟨y, hy, c⟩ := List.mem_map.1 h
      exact (a0 y hy).2 c
    rw [extWMean, e, if_neg (by simp only [a1, a2, and_false, or_self, not_false_eq_true]), if_pos a3]
  rw [h2]
  generalize extWMean ps = m at h1
  cases m with
  | fin a => exact absurd trivial h1
  | _ => rfl

/-- **C90 fails** for weights zero: a sample of weight 0 that is not finite makes the weighted sum NaN, and the weighted
mean not a number (a finite sample of weight 0 does not matter, C75). -/
theorem C90_zero_weight_fails (x0 : Ex K) (P : MeanProvider (Ex K × Ex K) (Ex K)) (hP : P = lazyWMean x0)
    {x : Ex K} (hx : ¬ IsFinite x) {ps : List (Ex K × Ex K)} (h : (x, fin 0) ∈ ps) :
    weightedSumRun x0 ps = nan ∧ IsNaN (P.read (P.run ps)) := by
  have hz : x * fin 0 = nan := by
    cases x with
    | fin a => exact absurd trivial hx
    | pinf => show infSign 0 = nan; simp [infSign]
    | ninf => show infSign (-0) = nan; simp [infSign]
    | nan => rfl
  have hs : weightedSumRun x0 ps = nan :=
    foldl_absorb weightedSumStep (fun s => s = nan) (x, fin 0) (fun s => by simp [weightedSumStep, hz])
      (fun s b hs => by simp [weightedSumStep, hs]) ps h _
  refine ⟨hs, ?_⟩
  subst hP
  rw [lazyWMean_sums]
  exact isNaN_fdiv hs _

/-- **C90 fails** when the sum of the weights overflows: in a format whose largest number is `M`, the weighted mean of
two samples `1/4` with weights `M` is 0, although both samples are `1/4`; the immediate weighted mean is NaN. -/
theorem C90_overflow_fails {M : K} (h1 : 1 ≤ M) :
    let F := Fmt.upTo M (by linarith) h1
    let ps : List (Ext F × Ext F) := [(fin (1 / 4), fin M), (fin (1 / 4), fin M)]
    (lazyWMean 0).read ((lazyWMean 0).run ps) = .val (fin 0) ∧
    (immWMean 0).read ((immWMean 0).run ps) = .val nan := by
  intro F ps
  have ho : ∀ x : K, 0 ≤ x → of F x = if M < x then pinf else fin x := by
    intro x hx
    have : ¬ M < -x := by linarith
    simp [of, F, Fmt.upTo, Fmt.exact, this]
  have hM : ¬ M < 0 := by linarith
  have hW1 : (0 : Ext F) + fin M = fin M := by
    show of F (0 + M) = _
    rw [ho _ (by linarith), if_neg (by linarith), zero_add]
  have hW2 : (fin M : Ext F) + fin M = pinf := by
    show of F (M + M) = _
    rw [ho _ (by linarith), if_pos (by linarith)]
  have hp : (fin (1 / 4) : Ext F) * fin M = fin (1 / 4 * M) := by
    show of F (1 / 4 * M) = _
    rw [ho _ (by linarith), if_neg (by linarith)]
  have h01 : (0 : Ext F) * 1 = 0 := by
    show of F (0 * 1) = _
    rw [ho _ (by simp), if_neg (by linarith), zero_mul]
    rfl
  have hs1 : (0 : Ext F) + fin (1 / 4 * M) = fin (1 / 4 * M) := by
    show of F (0 + 1 / 4 * M) = _
    rw [ho _ (by linarith), if_neg (by linarith), zero_add]
  have hs2 : (fin (1 / 4 * M) : Ext F) + fin (1 / 4 * M) = fin (1 / 4 * M + 1 / 4 * M) := by
    show of F (1 / 4 * M + 1 / 4 * M) = _
    rw [ho _ (by linarith), if_neg (by linarith)]
  have hi : fdiv ((0 : Ext F) * 1) 1 = .val 0 := by
    rw [h01, fdiv, if_neg (by rw [one_def, zero_def]; simp)]
    show Res.val (if (1 : K) = 0 then _ else of F (0 / 1)) = _
    rw [if_neg one_ne_zero, ho _ (by simp), if_neg (by simpa using hM), zero_div]
    rfl
  have hd1 : (fin M : Ext F) - fin M = 0 := by
    show of F (M - M) = _
    rw [sub_self, ho _ le_rfl, if_neg hM]
    rfl
  have h00 : (0 : Ext F) * 0 = 0 := by
    show of F (0 * 0) = _
    rw [ho _ (by simp), if_neg (by linarith), zero_mul]
    rfl
  have hq : (fin (1 / 4 * M) : Ext F) / fin M = fin (1 / 4) := by
    show (if M = 0 then _ else of F (1 / 4 * M / M)) = _
    have hM0 : M ≠ 0 := by linarith
    rw [if_neg hM0, mul_div_assoc, div_self hM0, mul_one, ho _ (by norm_num), if_neg (by linarith)]
  have hpi : (pinf : Ext F) ≠ 0 := nofun
  have hMz : (fin M : Ext F) ≠ 0 := by
    intro c
    have := Ext.fin.inj c
    linarith
  constructor
  · show fdiv ((0 * 1 + fin (1 / 4) * fin M) + fin (1 / 4) * fin M) (0 + fin M + fin M) = _
    rw [hp, h01, hs1, hs2, hW1, hW2, fdiv, if_neg hpi]
    rfl
  · show immWMeanStep (0 + fin M + fin M) (immWMeanStep (0 + fin M) (fdiv (0 * 1) 1) (fin (1 / 4), fin M))
      (fin (1 / 4), fin M) = _
    rw [hi, hW1, hW2]
    show (fdiv (0 * (fin M - fin M) + fin (1 / 4) * fin M) (fin M) >>= fun m =>
      fdiv (m * (pinf - fin M) + fin (1 / 4) * fin M) pinf) = _
    rw [hd1, h00, hp, hs1, fdiv, if_neg hMz, hq, Res.val_bind, fdiv, if_neg hpi]
    have h4 : (fin (1 / 4) : Ext F) * (pinf - fin M) = pinf := by
      show infSign (1 / 4) = _
      rw [infSign, if_pos (by norm_num)]
    rw [h4]
    rfl

/-! ## Examples -/

example : (lazyWMean 0).read ((lazyWMean 0).run (finWeights [((fin 1 : Ex ℚ), 2), (pinf, 1 / 2), (fin (-3), 1)]))
    = .val pinf :=
  (C90_mean (by decide +kernel) (by simp) _ (.inl rfl)).trans (by decide +kernel)

example : (immWMean 0).read ((immWMean 0).run (finWeights [((fin 1 : Ex ℚ), 2), (fin (-3), 1)]))
    = .val (fin (-1 / 3)) :=
  (C90_mean (by decide +kernel) (by simp) _ (.inr rfl)).trans (by decide +kernel)

example : lazyWeightedVarianceRun (lazyWMean 0) (finWeights [((fin 1 : Ex ℚ), 2), (ninf, 1)]) = .val nan :=
  C90_lazy_variance (by decide +kernel) _ (.inl rfl) (p := (ninf, 1)) (by simp) id

/-- A NaN of weight 0. -/
example : weightedSumRun (0 : Ex ℚ) [(fin 1, fin 1), (nan, fin 0)] = nan :=
  (C90_nan 0 one_ne_zero (w := fin 0) (by simp)).1

end

end Acc
