import Verif.Model.Root
import Verif.Props.Nonfinite
import Verif.Props.NonfiniteWeighted

/-!
# Infinite and NaN samples: skewness and error_of<mean> (C76, C90)
-/

set_option linter.unusedSectionVars false

namespace Acc

open Ext

variable {K : Type} [Field K] [LinearOrder K] [IsStrictOrderedRing K] {F : Fmt K}

theorem fin_skewnessWith {root : Ext F → Res (Ext F)} {m2 m3 m : Res (Ext F)} (h : IsFin (skewnessWith root m2 m3 m)) :
    IsFin m2 ∧ IsFin m3 ∧ IsFin m := by
  obtain ⟨a3, h3, h⟩ := isFin_bind h
  obtain ⟨a2, h2, h⟩ := isFin_bind h
  obtain ⟨a, ha, h⟩ := isFin_bind h
  obtain ⟨s, -, h⟩ := isFin_bind h
  have h4 := fin_add (isFin_fdiv h).1
  have h5 := fin_sub h4.1
  rw [h2, h3, ha]
  exact ⟨isFin_val.2 (fin_mul (fin_mul h5.2).1).2, isFin_val.2 h5.1, isFin_val.2 (fin_mul h4.2).2⟩

/-- **C76** Whatever the square root: if `skewness` is a finite number, then every sample was. -/
theorem C76_finite_skewness (root : Ext F → Res (Ext F)) (P : MeanProvider (Ext F) (Ext F)) (xs : List (Ext F))
    (h : IsFin (skewnessRunWith root P xs)) : ∀ x ∈ xs, IsFinite x :=
  (C76_finite 0 (N := 3) (by omega) xs).2.2.2.2.1 (fin_skewnessWith h).2.1

/-- **C76** If the square root of NaN or infinity is no finite number: where `error_of<mean>` is finite every sample was, and
where `error_of<immediate_mean>` of at least two samples is. -/
theorem C76_finite_error (root : Ext F → Res (Ext F)) (hroot : ∀ x, IsFin (root x) → IsFinite x) (w : ℕ) (x0 : Ext F)
    (P : MeanProvider (Ext F) (Ext F)) (xs : List (Ext F)) :
    (IsFin (errorOfMeanRunWith root w P xs) → ∀ x ∈ xs, IsFinite x) ∧
    (P = lazyMean x0 ∨ P = immMean x0 → 2 ≤ xs.length → IsFin (errorOfImmMeanRunWith root w P xs) → ∀ x ∈ xs, IsFinite x) := by
  have key : ∀ (v : Res (Ext F)) (c : BitVec w), IsFin (errorOfMeanWith root w v c) → IsFin v := by
    intro v c h
    obtain ⟨a, ha, h⟩ := isFin_bind h
    obtain ⟨q, hq, h⟩ := isFin_bind h
    rw [ha]
    exact isFin_val.2 (isFin_fdiv (by rw [hq]; exact isFin_val.2 (hroot q h))).1
  exact ⟨fun h => (C76_finite 0 (N := 2) (by omega) xs).2.2.2.2.2 P (key _ _ h),
    fun hP hl h => (C76_finite_second x0 x0 P P xs []).1 hP hl (key _ _ h)⟩

/-- **C90** Whatever the square root: if `weighted_skewness` is a finite number, then every sample and every weight was. -/
theorem C90_finite_skewness (root : Ext F → Res (Ext F)) (P : MeanProvider (Ext F × Ext F) (Ext F))
    (ps : List (Ext F × Ext F)) (h : IsFin (weightedSkewnessRunWith root P ps)) : ∀ p ∈ ps, FinPair p :=
  (C90_finite 0 (N := 3) (by omega) ps).2.2.2.2.1 (fin_skewnessWith h).2.1

/-- **C76** If the square root of NaN is NaN, one NaN sample makes `skewness` and `error_of<mean>` NaN. -/
theorem C76_nan_root {root : Ext F → Res (Ext F)} (hroot : root nan = .val nan) {P : MeanProvider (Ext F) (Ext F)}
    (hP : P = lazyMean 0 ∨ P = immMean 0) {xs : List (Ext F)} (h : nan ∈ xs) :
    skewnessRunWith root P xs = .val nan ∧
    (∀ w, 2 ≤ xs.length → xs.length < 2 ^ w →
      errorOfMeanRunWith root w P xs = .val nan ∧ errorOfImmMeanRunWith root w P xs = .val nan) := by
  have h2 := C76_nan 0 0 (N := 2) (by omega) h
  have h3 := C76_nan 0 0 (N := 3) (by omega) h
  have hn : (nan : Ext F) ≠ 0 := nofun
  constructor
  · rw [skewnessRunWith, h2.2.2.1, h3.2.2.1, (h2.2.2.2 P hP).1]
    simp [skewnessWith, hroot, fdiv, hn]
  · intro w hl hw
    have hne : xs ≠ [] := by rintro rfl; simp at hl
    rw [errorOfMeanRunWith, errorOfImmMeanRunWith, (h2.2.2.2 P hP).2.1, (h2.2.2.2 P hP).2.2 hl]
    simp only [errorOfMeanWith, Res.val_bind, count_sub_one_toNat w xs hne hw]
    rw [fdiv_count (by omega), nan_div, Res.val_bind]
    exact ⟨hroot, hroot⟩

theorem covarianceRun_val {P Q : MeanProvider (Ext F) (Ext F)} {x0 y0 : Ext F} (hP : P = lazyMean x0 ∨ P = immMean x0)
    (hQ : Q = lazyMean y0 ∨ Q = immMean y0) (ps : List (Ext F × Ext F)) : ∃ v, covarianceRun P Q 0 0 ps = .val v := by
  have h1 : ∀ a : Ext F, fdiv a 1 = .val (a / 1) := fun a => by
    rw [fdiv, if_neg]; rw [one_def, zero_def]; simp
  induction ps using List.reverseRecOn with
  | nil =>
    refine ⟨(0 / 1) * (0 / 1), ?_⟩
    show (do let a ← fdiv (0 : Ext F) 1; let b ← fdiv (0 : Ext F) 1; return a * b) = _
    simp [h1]
  | append_singleton xs p ih =>
    obtain ⟨c, hc⟩ := ih
    rw [covarianceRun_concat, covarianceStep, hc]
    by_cases hl : 1 < xs.length + 1
    · obtain ⟨m, hm⟩ := mean_val hP (xs := (xs ++ [p]).map Prod.fst) (by simp)
      obtain ⟨k, hk⟩ := mean_val hQ (xs := (xs ++ [p]).map Prod.snd) (by simp)
      rw [if_pos hl, hm, hk]
      simp only [Res.val_bind]
      rw [fdiv_count (Nat.succ_ne_zero _), fdiv_pred (by omega)]
      exact ⟨_, rfl⟩
    · rw [if_neg hl]
      exact ⟨_, rfl⟩

/-- **C76** One NaN sample makes the kurtosis NaN, and with two samples one NaN sample or covariate the covariance. -/
theorem C76_nan_second {x0 y0 : Ext F} {P Q : MeanProvider (Ext F) (Ext F)} (hP : P = lazyMean x0 ∨ P = immMean x0)
    (hQ : Q = lazyMean y0 ∨ Q = immMean y0) :
    (∀ xs, nan ∈ xs → kurtosisRun P xs = .val nan) ∧
    (∀ ps : List (Ext F × Ext F), 2 ≤ ps.length → (nan ∈ ps.map Prod.fst ∨ nan ∈ ps.map Prod.snd) →
      covarianceRun P Q 0 0 ps = .val nan) := by
  have hn : (nan : Ext F) ≠ 0 := nofun
  constructor
  · intro xs h
    have h2 := C76_nan 0 0 (N := 2) (by omega) h
    have h3 := C76_nan 0 0 (N := 3) (by omega) h
    have h4 := C76_nan 0 0 (N := 4) (by omega) h
    rw [kurtosisRun, h2.2.2.1, h3.2.2.1, h4.2.2.1, ((C76_nan x0 0 (N := 2) (by omega) h).2.2.2 P hP).1]
    simp [kurtosisResult, fdiv, hn]
  · intro ps hl h
    obtain ⟨ys, p, rfl, hy⟩ := concat_of_length hl
    obtain ⟨c, hc⟩ := covarianceRun_val hP hQ ys
    obtain ⟨m, hm⟩ := mean_val hP (xs := (ys ++ [p]).map Prod.fst) (by simp)
    obtain ⟨k, hk⟩ := mean_val hQ (xs := (ys ++ [p]).map Prod.snd) (by simp)
    have hmk : m = nan ∨ k = nan := by
      rcases h with h | h
      · left
        have := ((C76_nan x0 0 (N := 2) (by omega) h).2.2.2 P hP).1
        rw [hm] at this
        exact Res.val.inj this
      · right
        have := ((C76_nan y0 0 (N := 2) (by omega) h).2.2.2 Q hQ).1
        rw [hk] at this
        exact Res.val.inj this
    rw [covarianceRun_concat, covarianceStep, if_pos (by omega), hc, hm, hk]
    simp only [Res.val_bind]
    rw [fdiv_count (Nat.succ_ne_zero _), fdiv_pred (by omega)]
    rcases hmk with rfl | rfl <;> simp

/-- The hypothesis is met: with 2 the root of 4, the skewness of `4, -1, -1, -1, -1` is 3/2. -/
example : IsFin (skewnessRunWith (fun x : Ex ℚ => if x = fin 4 then .val (fin 2) else .nonfinite) (lazyMean 0)
    [fin 4, fin (-1), fin (-1), fin (-1), fin (-1)]) := ⟨3 / 2, by decide +kernel⟩

/-- One infinite sample is enough for the result not to be a number. -/
example (root : Ex ℚ → Res (Ex ℚ)) : ¬ IsFin (skewnessRunWith root (lazyMean 0) [fin 4, pinf, fin (-1)]) := fun h => by
  simpa [IsFinite] using C76_finite_skewness root _ _ h pinf (by simp)

end Acc
