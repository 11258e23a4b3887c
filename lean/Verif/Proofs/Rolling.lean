import Verif.Spec.Window
import Verif.Model.Rolling
import Verif.Proofs.Basic

/-! Helper lemmas for the rolling-window statistics. -/

set_option linter.unusedSectionVars false

namespace Acc

universe u

section window
variable {X : Type u}

theorem lastN_snoc_succ (N : ℕ) (xs : List X) (x : X) :
    Spec.lastN (N + 1) (xs ++ [x]) = Spec.lastN N xs ++ [x] := by
  unfold Spec.lastN
  rw [List.length_append, List.length_singleton, Nat.add_sub_add_right,
    List.drop_append_of_le_length (Nat.sub_le _ _)]

theorem lastN_length (N : ℕ) (xs : List X) : (Spec.lastN N xs).length = min xs.length N := by
  unfold Spec.lastN; rw [List.length_drop]; omega

theorem lastN_of_le {N : ℕ} {xs : List X} (h : xs.length ≤ N) : Spec.lastN N xs = xs := by
  unfold Spec.lastN; rw [Nat.sub_eq_zero_of_le h, List.drop_zero]

theorem lastN_succ_tail {N : ℕ} {xs : List X} (h : N < xs.length) :
    (Spec.lastN (N + 1) xs).tail = Spec.lastN N xs := by
  unfold Spec.lastN
  rw [List.tail_drop]
  congr 1; omega

/-- The next window in terms of the current one. -/
theorem lastN_snoc (N : ℕ) (xs : List X) (x : X) :
    Spec.lastN N (xs ++ [x])
      = if (Spec.lastN N xs).length = N then (Spec.lastN N xs ++ [x]).tail
        else Spec.lastN N xs ++ [x] := by
  rw [lastN_length, ← lastN_snoc_succ]
  split_ifs with h
  · rw [lastN_succ_tail]; simp; omega
  · have h' : xs.length < N := by omega
    rw [lastN_of_le (by simp; omega), lastN_of_le (by simp; omega)]

theorem window_run (N : ℕ) (xs : List X) :
    xs.foldl windowPush (windowInit N) = ⟨N + 1, Spec.lastN (N + 1) xs⟩ := by
  induction xs using List.reverseRecOn with
  | nil => simp [windowInit, Spec.lastN]
  | append_singleton xs x ih =>
    rw [List.foldl_append, ih, lastN_snoc_succ]
    simp only [List.foldl_cons, List.foldl_nil, windowPush, Ring.pushBack, lastN_length]
    split_ifs with h h'
    · rw [lastN_of_le (by omega), lastN_of_le (by omega)]
    · exact h'.elim
    · rw [lastN_succ_tail (by omega)]

/-- The window after one more sample, as a ring. -/
def nextRing (N : ℕ) (W : List X) (x : X) : Ring X := ⟨N + 1, W ++ [x]⟩

/-- The next window as a list. -/
def nextWin (N : ℕ) (W : List X) (x : X) : List X :=
  if W.length = N then (W ++ [x]).tail else W ++ [x]

theorem nextRing_full (N : ℕ) (W : List X) (x : X) :
    (nextRing N W x).full = decide (W.length = N) := by
  simp [nextRing, Ring.full]

theorem nextRing_count (N : ℕ) (W : List X) (x : X) :
    rollingCount (nextRing N W x) = (nextWin N W x).length := by
  unfold rollingCount
  rw [nextRing_full]
  by_cases h : W.length = N <;> simp [nextRing, nextWin, h]

theorem nextRing_window (N : ℕ) (W : List X) (x : X) :
    windowResult (nextRing N W x) = nextWin N W x := by
  unfold windowResult
  rw [nextRing_full]
  by_cases h : W.length = N <;> simp [nextRing, nextWin, h]

/-- When the window is full, its first element leaves. -/
theorem full_split {N : ℕ} {W : List X} {x : X} (h : W.length = N) :
    ∃ f, (nextRing N W x).front = .val f ∧ W ++ [x] = f :: nextWin N W x := by
  cases hW : W ++ [x] with
  | nil => simp at hW
  | cons f t => exact ⟨f, by simp [Ring.front, nextRing, hW], by simp [nextWin, h, hW]⟩

end window

variable {K : Type u} [Field K] [LinearOrder K] [IsStrictOrderedRing K]

/-- Sum of squared deviations from the mean. -/
def ssq (W : List K) : K := (W.map (fun x => (x - Spec.mean W) ^ 2)).sum

theorem rollingSumStep_next (N : ℕ) (W : List K) (x : K) :
    rollingSumStep (nextRing N W x) (.val W.sum) x = .val (nextWin N W x).sum := by
  unfold rollingSumStep
  rw [nextRing_full]
  by_cases h : W.length = N
  · obtain ⟨f, hf, hs⟩ := full_split (x := x) h
    have hsum : W.sum + x = f + (nextWin N W x).sum := by
      have := congrArg List.sum hs; simpa using this
    simp only [h, decide_true, if_true, hf, Res.val_bind, Res.pure_eq, Res.val.injEq]
    linear_combination hsum
  · simp [h, nextWin]

theorem rollingMomentStep_next (M N : ℕ) (W : List K) (x : K) :
    rollingMomentStep M (nextRing N W x) (.val (W.map (· ^ M)).sum) x
      = .val ((nextWin N W x).map (· ^ M)).sum := by
  unfold rollingMomentStep
  rw [nextRing_full]
  by_cases h : W.length = N
  · obtain ⟨f, hf, hs⟩ := full_split (x := x) h
    have hsum : (W.map (· ^ M)).sum + x ^ M = f ^ M + ((nextWin N W x).map (· ^ M)).sum := by
      have := congrArg (fun l => (l.map (· ^ M)).sum) hs; simpa using this
    simp only [h, decide_true, if_true, hf, Res.val_bind, Res.pure_eq, Res.val.injEq, mpow_eq]
    linear_combination hsum
  · simp [h, nextWin, mpow_eq]

theorem nextWin_ne_nil {N : ℕ} (hN : 0 < N) (W : List K) (x : K) : nextWin N W x ≠ [] := by
  unfold nextWin
  split_ifs with h
  · cases W with
    | nil => simp at h; omega
    | cons a t => simp
  · simp

theorem lazyRollingMean_next {N : ℕ} (hN : 0 < N) (W : List K) (x : K) :
    lazyRollingMeanResult (nextRing N W x) (.val (nextWin N W x).sum)
      = .val (Spec.mean (nextWin N W x)) := by
  unfold lazyRollingMeanResult
  rw [nextRing_count]
  simp [Spec.mean, fdiv, nextWin_ne_nil hN W x]

theorem nextWin_length_full {N : ℕ} {W : List K} {x : K} (h : W.length = N) :
    (nextWin N W x).length = W.length := by
  simp [nextWin, h]

theorem immRollingMeanStep_next {N : ℕ} (hN : 0 < N) (W : List K) (x : K) :
    immRollingMeanStep (nextRing N W x) (.val (Spec.mean W)) x
      = .val (Spec.mean (nextWin N W x)) := by
  unfold immRollingMeanStep
  rw [nextRing_full, nextRing_count]
  have hne := nextWin_ne_nil hN W x
  have hc : ((nextWin N W x).length : K) ≠ 0 := length_cast_ne hne
  by_cases h : W.length = N
  · obtain ⟨f, hf, hs⟩ := full_split (x := x) h
    have hsum : W.sum + x = f + (nextWin N W x).sum := by
      have := congrArg List.sum hs; simpa using this
    have hl := nextWin_length_full (x := x) h
    simp only [h, decide_true, if_true, hf, Res.val_bind, fdiv_ne hc, Res.pure_eq]
    have key : Spec.mean (nextWin N W x)
        = Spec.mean W + (x - f) / ((nextWin N W x).length : K) := by
      unfold Spec.mean
      rw [← hl]
      field_simp
      linear_combination -hsum
    split_ifs with h1 h2
    · rw [key]; congr 1; field_simp; ring
    · rw [key]
    · have : f = x := le_antisymm (not_lt.1 h1) (not_lt.1 h2)
      rw [key, this]; simp
  · have hn : (W.length : K) + 1 ≠ 0 := Nat.cast_add_one_ne_zero _
    have key : Spec.mean (nextWin N W x)
        = Spec.mean W + (x - Spec.mean W) / ((nextWin N W x).length : K) := by
      by_cases hW : W = []
      · have hnw : nextWin N W x = [x] := by subst hW; simp [nextWin, hN.ne]
        rw [hnw, hW]; simp [Spec.mean]
      · have hl := length_cast_ne (K := K) hW
        simp only [nextWin, h, if_false, Spec.mean, List.sum_append, List.sum_singleton,
          List.length_append, List.length_singleton]
        push_cast
        field_simp
        ring
    simp only [h, decide_false, Bool.false_eq_true, if_false, Res.val_bind, fdiv_ne hc,
      Res.pure_eq]
    split_ifs with h1 h2
    · rw [key]; congr 1; field_simp; ring
    · rw [key]
    · have : Spec.mean W = x := le_antisymm (not_lt.1 h1) (not_lt.1 h2)
      rw [key, this]; simp

theorem ssq_eq {W : List K} (h : W ≠ []) :
    ssq W = (W.map (· ^ 2)).sum - (W.length : K) * Spec.mean W ^ 2 := by
  unfold ssq
  rw [sum_sq_dev, ← mean_mul_length h]
  ring

theorem ssq_nonneg (W : List K) : 0 ≤ ssq W :=
  List.sum_nonneg (by
    intro y hy
    obtain ⟨x, _, rfl⟩ := List.mem_map.1 hy
    exact sq_nonneg _)

theorem rollVar_step_next {N : ℕ} (hN : 0 < N) (W : List K) (x : K) :
    RollVar.step (nextRing N W x) (.val (Spec.mean (nextWin N W x)))
        ⟨.val (Spec.mean W), .val (ssq W)⟩ x
      = ⟨.val (Spec.mean (nextWin N W x)), .val (ssq (nextWin N W x))⟩ := by
  unfold RollVar.step
  rw [nextRing_full]
  have hne := nextWin_ne_nil hN W x
  have hc : ((nextWin N W x).length : K) ≠ 0 := length_cast_ne hne
  simp only [Res.val_bind, RollVar.mk.injEq, true_and]
  by_cases h : W.length = N
  · obtain ⟨f, hf, hs⟩ := full_split (x := x) h
    have hW : W ≠ [] := by rintro rfl; simp at h; omega
    have hsum : W.sum + x = f + (nextWin N W x).sum := by
      have := congrArg List.sum hs; simpa using this
    have hsq : (W.map (· ^ 2)).sum + x ^ 2 = f ^ 2 + ((nextWin N W x).map (· ^ 2)).sum := by
      have := congrArg (fun l => (l.map (· ^ 2)).sum) hs; simpa using this
    have hl : (W.length : K) = ((nextWin N W x).length : K) := by
      rw [nextWin_length_full (x := x) h]
    simp only [h, decide_true, if_true, hf, Res.val_bind, Res.pure_eq, Res.val.injEq]
    have key : ssq W + (x - Spec.mean (nextWin N W x)) * (x - Spec.mean W)
        - (f - Spec.mean (nextWin N W x)) * (f - Spec.mean W) = ssq (nextWin N W x) := by
      rw [ssq_eq hW, ssq_eq hne, hl]
      have e1 := mean_mul_length hW
      have e2 := mean_mul_length hne
      rw [hl] at e1
      generalize Spec.mean W = a at *
      generalize Spec.mean (nextWin N W x) = b at *
      have e3 : (b - a) * ((nextWin N W x).length : K) = x - f := by
        rw [sub_mul, e1, e2]; linear_combination -hsum
      linear_combination hsq + (a + b) * e3
    rw [key, preventUnderflow, if_neg (not_lt.2 (ssq_nonneg _))]
  · simp only [h, decide_false, Bool.false_eq_true, if_false, Res.pure_eq, Res.val.injEq]
    by_cases hW : W = []
    · have hnw : nextWin N W x = [x] := by subst hW; simp [nextWin, hN.ne]
      rw [hnw, hW]; simp [ssq, Spec.mean]
    · have hnw : nextWin N W x = W ++ [x] := by simp [nextWin, h]
      rw [ssq_eq hW, ssq_eq hne, hnw]
      have e1 := mean_mul_length hW
      have e2 := mean_mul_length (xs := W ++ [x]) (by simp)
      simp only [List.length_append, List.length_singleton, List.sum_append, List.sum_singleton,
        List.map_append, List.map_cons, List.map_nil, Nat.cast_add, Nat.cast_one] at *
      generalize Spec.mean W = a at *
      generalize Spec.mean (W ++ [x]) = b at *
      linear_combination (a + b) * (e2 - e1)

/-- The state of the whole rolling set after any stream. -/
theorem rollRun_state (kind : RollMeanKind) {N : ℕ} (hN : 0 < N) (xs : List K) :
    rollRun kind N 0 xs =
      { b := ⟨N + 1, Spec.lastN (N + 1) xs⟩
        sum := .val (Spec.lastN N xs).sum
        moment := fun M => .val ((Spec.lastN N xs).map (· ^ M)).sum
        imean := .val (Spec.mean (Spec.lastN N xs))
        var := ⟨.val (Spec.mean (Spec.lastN N xs)), .val (ssq (Spec.lastN N xs))⟩ } := by
  induction xs using List.reverseRecOn with
  | nil => simp [rollRun, RollSt.init, windowInit, Spec.lastN, Spec.mean, ssq, RollVar.init]
  | append_singleton xs x ih =>
    have hb : windowPush ⟨N + 1, Spec.lastN (N + 1) xs⟩ x = nextRing N (Spec.lastN N xs) x := by
      have h1 := window_run N (xs ++ [x])
      rw [List.foldl_append, window_run] at h1
      rw [nextRing, ← lastN_snoc_succ]
      exact h1
    have hw : Spec.lastN N (xs ++ [x]) = nextWin N (Spec.lastN N xs) x := lastN_snoc N xs x
    unfold rollRun at *
    rw [List.foldl_append, ih, hw, lastN_snoc_succ]
    simp only [List.foldl_cons, List.foldl_nil, RollSt.push, hb, rollingSumStep_next,
      rollingMomentStep_next, immRollingMeanStep_next hN]
    cases kind with
    | lazy => simp only [lazyRollingMean_next hN, rollVar_step_next hN]; rfl
    | immediate => simp only [rollVar_step_next hN]; rfl

theorem rollingCount_lastN (N : ℕ) (xs : List K) :
    rollingCount (⟨N + 1, Spec.lastN (N + 1) xs⟩ : Ring K) = (Spec.lastN N xs).length := by
  simp only [rollingCount, Ring.full, lastN_length]
  split_ifs with h
  · simp at h; omega
  · simp at h; omega

theorem windowResult_lastN {X : Type u} (N : ℕ) (xs : List X) :
    windowResult (⟨N + 1, Spec.lastN (N + 1) xs⟩ : Ring X) = Spec.lastN N xs := by
  simp only [windowResult, Ring.full, lastN_length]
  split_ifs with h
  · simp at h
    rw [List.drop_one, lastN_succ_tail (by omega)]
  · simp at h
    rw [List.drop_zero, lastN_of_le (by omega), lastN_of_le (by omega)]

end Acc
