import Verif.Proofs.Rolling

/-!
# Properties C12–C14: rolling-window statistics
-/

set_option linter.unusedSectionVars false

namespace Acc

universe u

/-! ## C12 window -/

/-- **C12.** The rolling window is the last `min n N` samples in order of arrival, for every `N`. -/
theorem C12_window {X : Type u} (N : ℕ) (xs : List X) :
    windowResult (xs.foldl windowPush (windowInit N)) = xs.drop (xs.length - N) := by
  rw [window_run, windowResult_lastN]; rfl

/-- **C12.** `rolling_count` is `min n N`. -/
theorem C12_count {X : Type u} (N : ℕ) (xs : List X) :
    rollingCount (xs.foldl windowPush (windowInit N)) = min xs.length N := by
  rw [window_run]
  simp only [rollingCount, Ring.full, lastN_length]
  split_ifs with h
  · simp at h; omega
  · simp at h; omega

example : windowResult ([1, 2, 3, 4, 5].foldl windowPush (windowInit 3)) = [3, 4, 5] := by
  rw [C12_window]; rfl
example : windowResult ([1, 2].foldl windowPush (windowInit 3)) = [1, 2] := by
  rw [C12_window]; rfl
example : rollingCount ([1, 2, 3].foldl windowPush (windowInit 3)) = 3 := by
  rw [C12_count]; rfl

variable {K : Type u} [Field K] [LinearOrder K] [IsStrictOrderedRing K]

/-! ## C13 sum, mean, moment -/

/-- **C13.** The rolling sum is the sum of the last `min n N` samples, for every `N` (also 0) and
whatever provides the mean. -/
theorem C13_sum (kind : RollMeanKind) (N : ℕ) (xs : List K) :
    (rollRun kind N 0 xs).sum = .val (xs.drop (xs.length - N)).sum := by
  change _ = Res.val (Spec.lastN N xs).sum
  have key : (rollRun kind N 0 xs).b = ⟨N + 1, Spec.lastN (N + 1) xs⟩
      ∧ (rollRun kind N 0 xs).sum = .val (Spec.lastN N xs).sum := by
    induction xs using List.reverseRecOn with
    | nil => simp [rollRun, RollSt.init, windowInit, Spec.lastN]
    | append_singleton xs x ih =>
      have hb : windowPush ⟨N + 1, Spec.lastN (N + 1) xs⟩ x
          = nextRing N (Spec.lastN N xs) x := by
        have h1 := window_run N (xs ++ [x])
        rw [List.foldl_append, window_run] at h1
        rw [nextRing, ← lastN_snoc_succ]
        exact h1
      have hw : Spec.lastN N (xs ++ [x]) = nextWin N (Spec.lastN N xs) x := lastN_snoc N xs x
      unfold rollRun at *
      rw [List.foldl_append, hw, lastN_snoc_succ]
      simp only [List.foldl_cons, List.foldl_nil, RollSt.push, ih.1, ih.2, hb,
        rollingSumStep_next]
      exact ⟨rfl, trivial⟩
  exact key.2

/-- **C13.** Both variants of the rolling mean are the mean of the last `min n N` samples. -/
theorem C13_mean (kind : RollMeanKind) (N : ℕ) (hN : 0 < N) (xs : List K) (h : xs ≠ []) :
    (rollRun kind N 0 xs).mean kind = .val (Spec.mean (xs.drop (xs.length - N))) := by
  change _ = Res.val (Spec.mean (Spec.lastN N xs))
  rw [rollRun_state kind hN]
  have hne : Spec.lastN N xs ≠ [] := by
    rw [← List.length_pos_iff, lastN_length]
    have := List.length_pos_iff.mpr h; omega
  cases kind with
  | immediate => rfl
  | lazy =>
    simp only [RollSt.mean, lazyRollingMeanResult, rollingCount_lastN, Res.val_bind]
    rw [fdiv_ne (length_cast_ne hne)]; rfl

/-- **C13.** The two variants agree after every non-empty stream. -/
theorem C13_mean_agree (N : ℕ) (hN : 0 < N) (xs : List K) (h : xs ≠ []) :
    (rollRun .lazy N 0 xs).mean .lazy = (rollRun .immediate N 0 xs).mean .immediate := by
  rw [C13_mean .lazy N hN xs h, C13_mean .immediate N hN xs h]

/-- **C13.** `rolling_moment<M>` is the `M`-th raw moment of the last `min n N` samples. -/
theorem C13_moment (kind : RollMeanKind) (M N : ℕ) (hN : 0 < N) (xs : List K) (h : xs ≠ []) :
    rollingMomentResult (rollRun kind N 0 xs).b ((rollRun kind N 0 xs).moment M)
      = .val (Spec.rawMoment M (xs.drop (xs.length - N))) := by
  change _ = Res.val (Spec.rawMoment M (Spec.lastN N xs))
  rw [rollRun_state kind hN]
  have hne : Spec.lastN N xs ≠ [] := by
    rw [← List.length_pos_iff, lastN_length]
    have := List.length_pos_iff.mpr h; omega
  simp only [rollingMomentResult, rollingCount_lastN, Res.val_bind]
  rw [fdiv_ne (length_cast_ne hne)]; rfl

/-- The two variants of the rolling mean disagree before the first sample: NaN and 0. -/
theorem C13_mean_empty (N : ℕ) :
    (rollRun (K := ℚ) .lazy N 0 []).mean .lazy = .nonfinite
      ∧ (rollRun (K := ℚ) .immediate N 0 []).mean .immediate = .val 0 := by
  constructor
  · simp [rollRun, RollSt.init, RollSt.mean, lazyRollingMeanResult, rollingCount, windowInit]
  · simp [rollRun, RollSt.init, RollSt.mean]

example : (rollRun .immediate 2 (0 : ℚ) [1, 2, 6]).mean .immediate = .val 4 := by
  rw [C13_mean _ _ (by norm_num) _ (by simp)]; norm_num [Spec.mean]
example : (rollRun .lazy 2 (0 : ℚ) [1, 2, 6]).sum = .val 8 := by
  rw [C13_sum]; norm_num

/-! ## C14 variance -/

/-- **C14.** Recursive rolling variance, with either provider of the mean. -/
theorem C14_immediate (kind : RollMeanKind) (N : ℕ) (hN : 0 < N) (xs : List K) :
    (rollRun kind N 0 xs).var.result (rollRun kind N 0 xs).b
      = .val (if min xs.length N < 2 then 0
          else Spec.sampleVariance (xs.drop (xs.length - N))) := by
  change _ = Res.val (if min xs.length N < 2 then 0 else Spec.sampleVariance (Spec.lastN N xs))
  rw [rollRun_state kind hN]
  simp only [RollVar.result, rollingCount_lastN, Res.val_bind]
  rw [← lastN_length]
  split_ifs with h
  · rfl
  · have : ((Spec.lastN N xs).length : K) - 1 ≠ 0 := by
      have h2 : (2 : K) ≤ ((Spec.lastN N xs).length : K) := by exact_mod_cast not_lt.1 h
      have h3 : (0 : K) < ((Spec.lastN N xs).length : K) - 1 := by linarith
      exact h3.ne'
    rw [fdiv_ne this]; rfl

/-- **C14.** Lazy rolling variance, with either provider of the mean. -/
theorem C14_lazy (kind : RollMeanKind) (N : ℕ) (hN : 0 < N) (xs : List K) :
    lazyRollingVarianceResult (rollRun kind N 0 xs).b
        (rollingMomentResult (rollRun kind N 0 xs).b ((rollRun kind N 0 xs).moment 2))
        ((rollRun kind N 0 xs).mean kind)
      = .val (if min xs.length N < 2 then 0
          else Spec.sampleVariance (xs.drop (xs.length - N))) := by
  by_cases hx : xs = []
  · subst hx
    simp [rollRun, RollSt.init, lazyRollingVarianceResult, rollingCount, windowInit]
  change _ = Res.val (if min xs.length N < 2 then 0 else Spec.sampleVariance (Spec.lastN N xs))
  rw [C13_mean kind N hN xs hx, C13_moment kind 2 N hN xs hx]
  change lazyRollingVarianceResult _ (.val (Spec.rawMoment 2 (Spec.lastN N xs)))
    (.val (Spec.mean (Spec.lastN N xs))) = _
  rw [rollRun_state kind hN]
  simp only [lazyRollingVarianceResult, rollingCount_lastN, Res.val_bind]
  rw [← lastN_length]
  split_ifs with h
  · rfl
  · have hne : Spec.lastN N xs ≠ [] := by rintro e; rw [e] at h; simp at h
    have hl := length_cast_ne (K := K) hne
    have : ((Spec.lastN N xs).length : K) - 1 ≠ 0 := by
      have h2 : (2 : K) ≤ ((Spec.lastN N xs).length : K) := by exact_mod_cast not_lt.1 h
      have h3 : (0 : K) < ((Spec.lastN N xs).length : K) - 1 := by linarith
      exact h3.ne'
    rw [fdiv_ne this, Spec.sampleVariance, ← centralTwo_eq hne]
    unfold Spec.centralMoment
    congr 2
    field_simp

/-- **C14.** The rolling variance is never negative. -/
theorem C14_nonneg (kind : RollMeanKind) (N : ℕ) (hN : 0 < N) (xs : List K) :
    ∃ v, (rollRun kind N 0 xs).var.result (rollRun kind N 0 xs).b = .val v ∧ 0 ≤ v := by
  refine ⟨_, C14_immediate kind N hN xs, ?_⟩
  split_ifs with h
  · exact le_refl _
  · change 0 ≤ Spec.sampleVariance (Spec.lastN N xs)
    have h2 : (2 : K) ≤ ((Spec.lastN N xs).length : K) := by
      rw [lastN_length]; exact_mod_cast not_lt.1 h
    exact div_nonneg (ssq_nonneg _) (by linarith)

/-- **C14.** The clamp of the code (`prevent_underflow`) never acts in exact arithmetic: before
clamping, the new sum of squares is the sum of squared deviations of the new window. -/
theorem C14_clamp_idle (kind : RollMeanKind) (N : ℕ) (hN : 0 < N) (xs : List K) :
    ∃ s, (rollRun kind N 0 xs).var.ss = .val s
      ∧ s = ((xs.drop (xs.length - N)).map
              (fun x => (x - Spec.mean (xs.drop (xs.length - N))) ^ 2)).sum
      ∧ preventUnderflow s = s := by
  refine ⟨ssq (Spec.lastN N xs), by rw [rollRun_state kind hN], rfl, ?_⟩
  rw [preventUnderflow, if_neg (not_lt.2 (ssq_nonneg _))]

example : (rollRun .immediate 2 (0 : ℚ) [1, 2, 6]).var.result (rollRun .immediate 2 0 [1, 2, 6]).b
    = .val 8 := by
  rw [C14_immediate _ _ (by norm_num)]
  norm_num [Spec.sampleVariance, Spec.mean]

end Acc
