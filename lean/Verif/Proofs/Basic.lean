import Verif.Spec.Stats
import Verif.Model.Basic
import Mathlib.Tactic

/-! Helper lemmas for the basic statistics. -/

set_option linter.unusedSectionVars false

namespace Acc

universe u v
variable {K : Type u} [Field K]

theorem sumRun_eq {A : Type v} {M : Type u} [AddCommMonoid M] (tag : A → M) (x0 : M)
    (xs : List A) : sumRun tag x0 xs = x0 + (xs.map tag).sum := by
  unfold sumRun
  induction xs generalizing x0 with
  | nil => simp
  | cons x xs ih => rw [List.foldl_cons, ih]; simp [sumStep, add_assoc]

theorem kahanRun_eq {A : Type v} {M : Type u} [AddCommGroup M] (tag : A → M) (x0 : M)
    (xs : List A) : kahanRun tag x0 xs = ⟨x0 + (xs.map tag).sum, 0⟩ := by
  unfold kahanRun Kahan.init
  induction xs generalizing x0 with
  | nil => simp
  | cons x xs ih =>
    have : Kahan.step ⟨x0, 0⟩ (tag x) = ⟨x0 + tag x, 0⟩ := by simp [Kahan.step]
    simp [this, ih, add_assoc]

section central

theorem list_sum_const (xs : List K) (c : K) :
    (xs.map (fun _ => c)).sum = (xs.length : K) * c := by
  simp

/-- Expansion of the sum of squared deviations from an arbitrary centre. -/
theorem sum_sq_dev (xs : List K) (c : K) :
    (xs.map (fun x => (x - c) ^ 2)).sum
      = (xs.map (fun x => x ^ 2)).sum - 2 * c * xs.sum + (xs.length : K) * c ^ 2 := by
  induction xs with
  | nil => simp
  | cons x xs ih => simp only [List.map_cons, List.sum_cons, List.length_cons, ih]; push_cast; ring

theorem sum_cube_dev (xs : List K) (c : K) :
    (xs.map (fun x => (x - c) ^ 3)).sum
      = (xs.map (fun x => x ^ 3)).sum - 3 * c * (xs.map (fun x => x ^ 2)).sum
        + 3 * c ^ 2 * xs.sum - (xs.length : K) * c ^ 3 := by
  induction xs with
  | nil => simp
  | cons x xs ih => simp only [List.map_cons, List.sum_cons, List.length_cons, ih]; push_cast; ring

theorem sum_four_dev (xs : List K) (c : K) :
    (xs.map (fun x => (x - c) ^ 4)).sum
      = (xs.map (fun x => x ^ 4)).sum - 4 * c * (xs.map (fun x => x ^ 3)).sum
        + 6 * c ^ 2 * (xs.map (fun x => x ^ 2)).sum
        - 4 * c ^ 3 * xs.sum + (xs.length : K) * c ^ 4 := by
  induction xs with
  | nil => simp
  | cons x xs ih => simp only [List.map_cons, List.sum_cons, List.length_cons, ih]; push_cast; ring

theorem sum_cross_dev (ps : List (K × K)) (a b : K) :
    (ps.map (fun p => (p.1 - a) * (p.2 - b))).sum
      = (ps.map (fun p => p.1 * p.2)).sum - a * (ps.map Prod.snd).sum - b * (ps.map Prod.fst).sum
        + (ps.length : K) * (a * b) := by
  induction ps with
  | nil => simp
  | cons x xs ih => simp only [List.map_cons, List.sum_cons, List.length_cons, ih]; push_cast; ring

end central

variable [CharZero K]

theorem length_cast_ne {X : Type*} {xs : List X} (h : xs ≠ []) : (xs.length : K) ≠ 0 := by
  have : xs.length ≠ 0 := by simpa using h
  exact_mod_cast this

theorem mean_mul_length {xs : List K} (h : xs ≠ []) :
    Spec.mean xs * (xs.length : K) = xs.sum := by
  unfold Spec.mean; field_simp [length_cast_ne (K := K) h]

theorem centralTwo_eq {xs : List K} (h : xs ≠ []) :
    Spec.centralMoment 2 xs = Spec.rawMoment 2 xs - Spec.mean xs * Spec.mean xs := by
  have hn := length_cast_ne (K := K) h
  unfold Spec.centralMoment Spec.rawMoment
  rw [sum_sq_dev, ← mean_mul_length h]
  field_simp
  ring

theorem centralThree_eq {xs : List K} (h : xs ≠ []) :
    Spec.centralMoment 3 xs = Spec.rawMoment 3 xs - 3 * Spec.rawMoment 2 xs * Spec.mean xs
      + 2 * Spec.mean xs * Spec.mean xs * Spec.mean xs := by
  have hn := length_cast_ne (K := K) h
  unfold Spec.centralMoment Spec.rawMoment
  rw [sum_cube_dev, ← mean_mul_length h]
  field_simp
  ring

theorem centralFour_eq {xs : List K} (h : xs ≠ []) :
    Spec.centralMoment 4 xs = Spec.rawMoment 4 xs - 4 * Spec.rawMoment 3 xs * Spec.mean xs
      + 6 * Spec.rawMoment 2 xs * Spec.mean xs * Spec.mean xs
      - 3 * Spec.mean xs * Spec.mean xs * Spec.mean xs * Spec.mean xs := by
  have hn := length_cast_ne (K := K) h
  unfold Spec.centralMoment Spec.rawMoment
  rw [sum_four_dev, ← mean_mul_length h]
  field_simp
  ring

theorem mpow_eq (x : K) (n : ℕ) : mpow x n = x ^ n := by
  induction n using Nat.strong_induction_on with
  | _ n ih =>
    rw [mpow]
    split_ifs with h0 h1 h2
    · simp [h0]
    · simp [h1]
    · show mpow x (n / 2) * mpow x (n / 2) * x = _
      rw [ih (n / 2) (by omega), ← pow_add, ← pow_succ]
      congr 1; omega
    · show mpow x (n / 2) * mpow x (n / 2) = _
      rw [ih (n / 2) (by omega), ← pow_add]
      congr 1; omega

variable [DecidableEq K]

theorem lazyMean_run (x0 : K) (xs : List K) :
    (lazyMean x0).run xs = (⟨xs.length, x0 + xs.sum⟩ : CountSum K) := by
  induction xs using List.reverseRecOn with
  | nil => simp [MeanProvider.run, lazyMean]
  | append_singleton xs x ih =>
    unfold MeanProvider.run at *
    rw [List.foldl_append, ih]
    simp [lazyMean, sumStep, add_assoc]

theorem immMean_run (x0 : K) (xs : List K) :
    (immMean x0).run xs
      = (⟨xs.length, .val (if xs = [] then x0 else Spec.mean xs)⟩ : CountMean K) := by
  induction xs using List.reverseRecOn with
  | nil => simp [MeanProvider.run, immMean]
  | append_singleton xs x ih =>
    unfold MeanProvider.run at *
    rw [List.foldl_append, ih]
    have hn : ((xs.length : K) + 1) ≠ 0 := Nat.cast_add_one_ne_zero _
    by_cases h : xs = []
    · subst h; simp [immMean, immMeanStep, fdiv, Spec.mean]
    · simp only [immMean, immMeanStep, h, if_false, List.foldl_cons, List.foldl_nil,
        List.length_append, List.length_singleton, Res.val_bind]
      push_cast
      rw [fdiv_ne hn]
      simp only [CountMean.mk.injEq, true_and, add_sub_cancel_right, mean_mul_length h]
      simp [Spec.mean]

theorem momentRun_state (N : ℕ) (x0 : K) (xs : List K) :
    xs.foldl (MomentSt.push N) (MomentSt.init x0)
      = ⟨xs.length, x0 + (xs.map (fun x => x ^ N)).sum⟩ := by
  induction xs using List.reverseRecOn with
  | nil => simp [MomentSt.init]
  | append_singleton xs x ih =>
    rw [List.foldl_append, ih]
    simp [MomentSt.push, mpow_eq, add_assoc]

/-- A provider is correct if it returns the arithmetic mean of every non-empty stream. -/
def MeanProvider.Correct (P : MeanProvider K K) : Prop :=
  ∀ xs : List K, xs ≠ [] → P.read (P.run xs) = .val (Spec.mean xs)

theorem lazyMean_correct : (lazyMean (0 : K)).Correct := by
  intro xs h
  rw [lazyMean_run]
  simp [lazyMean, Spec.mean, fdiv, length_cast_ne (K := K) h]

theorem immMean_correct (x0 : K) : (immMean x0).Correct := by
  intro xs h
  rw [immMean_run]
  simp [immMean, h]

theorem variance_foldl (P : MeanProvider K K) (hP : P.Correct) (x0 : K) (xs : List K) :
    xs.foldl (VarianceSt.push P) (VarianceSt.init P x0)
      = ⟨P.run xs, xs.length,
          .val (if xs = [] then x0 else Spec.variance xs + x0 / (xs.length : K))⟩ := by
  induction xs using List.reverseRecOn with
  | nil => simp [VarianceSt.init, MeanProvider.run]
  | append_singleton xs x ih =>
    rw [List.foldl_append, ih]
    have hr : P.push (P.run xs) x = P.run (xs ++ [x]) := by simp [MeanProvider.run]
    simp only [List.foldl_cons, List.foldl_nil, VarianceSt.push, hr,
      hP (xs ++ [x]) (by simp)]
    by_cases h : xs = []
    · subst h
      simp [varianceStep, Spec.variance, Spec.centralMoment, Spec.mean]
    · have hn := length_cast_ne (K := K) h
      have hn1 : ((xs.length : K) + 1) ≠ 0 := Nat.cast_add_one_ne_zero _
      have hlen : xs.length + 1 > 1 := by
        have := List.length_pos_iff.mpr h; omega
      simp only [varianceStep, hlen, if_true, h, if_false, Res.val_bind, List.length_append,
        List.length_singleton, List.append_eq_nil_iff, List.cons_ne_nil, and_false]
      push_cast
      rw [add_sub_cancel_right, fdiv_ne hn1, fdiv_ne hn]
      simp only [Res.val_bind, Res.pure_eq, VarianceSt.mk.injEq, Res.val.injEq, true_and]
      -- algebra
      have e1 : Spec.variance xs = (xs.map (fun x => x ^ 2)).sum / (xs.length : K)
          - (xs.sum / (xs.length : K)) * (xs.sum / (xs.length : K)) := by
        rw [Spec.variance, centralTwo_eq h]; rfl
      have e2 : Spec.variance (xs ++ [x])
          = ((xs.map (fun x => x ^ 2)).sum + x ^ 2) / ((xs.length : K) + 1)
          - ((xs.sum + x) / ((xs.length : K) + 1)) * ((xs.sum + x) / ((xs.length : K) + 1)) := by
        rw [Spec.variance, centralTwo_eq (by simp)]
        simp [Spec.rawMoment, Spec.mean]
      have e3 : Spec.mean (xs ++ [x]) = (xs.sum + x) / ((xs.length : K) + 1) := by
        simp [Spec.mean]
      rw [e1, e2, e3]
      field_simp
      ring

theorem covariance_eq {ps : List (K × K)} (h : ps ≠ []) :
    Spec.covariance ps = (ps.map (fun p => p.1 * p.2)).sum / (ps.length : K)
      - Spec.mean (ps.map Prod.fst) * Spec.mean (ps.map Prod.snd) := by
  have hn := length_cast_ne (K := K) h
  unfold Spec.covariance
  rw [sum_cross_dev]
  simp only [Spec.mean, List.length_map]
  field_simp
  ring

theorem covariance_foldl (P Q : MeanProvider K K) (hP : P.Correct) (hQ : Q.Correct) (x0 y0 : K)
    (ps : List (K × K)) :
    ps.foldl (CovSt.push P Q) (CovSt.init P Q x0 y0)
      = ⟨P.run (ps.map Prod.fst), Q.run (ps.map Prod.snd), ps.length,
          .val (if ps = [] then x0 * y0
            else Spec.covariance ps + x0 * y0 / (ps.length : K))⟩ := by
  induction ps using List.reverseRecOn with
  | nil => simp [CovSt.init, MeanProvider.run]
  | append_singleton xs x ih =>
    rw [List.foldl_append, ih]
    have hr : P.push (P.run (xs.map Prod.fst)) x.1 = P.run ((xs ++ [x]).map Prod.fst) := by
      simp [MeanProvider.run]
    have hr' : Q.push (Q.run (xs.map Prod.snd)) x.2 = Q.run ((xs ++ [x]).map Prod.snd) := by
      simp [MeanProvider.run]
    simp only [List.foldl_cons, List.foldl_nil, CovSt.push, hr, hr',
      hP ((xs ++ [x]).map Prod.fst) (by simp), hQ ((xs ++ [x]).map Prod.snd) (by simp)]
    by_cases h : xs = []
    · subst h
      simp [covarianceStep, Spec.covariance, Spec.mean]
    · have hn := length_cast_ne (K := K) h
      have hn1 : ((xs.length : K) + 1) ≠ 0 := Nat.cast_add_one_ne_zero _
      have hlen : xs.length + 1 > 1 := by
        have := List.length_pos_iff.mpr h; omega
      simp only [covarianceStep, hlen, if_true, h, if_false, Res.val_bind, List.length_append,
        List.length_singleton, List.append_eq_nil_iff, List.cons_ne_nil, and_false]
      push_cast
      rw [add_sub_cancel_right, fdiv_ne hn1, fdiv_ne hn]
      simp only [Res.val_bind, Res.pure_eq, CovSt.mk.injEq, Res.val.injEq, true_and]
      rw [covariance_eq h, covariance_eq (by simp)]
      simp only [Spec.mean, List.map_append, List.sum_append, List.length_append, List.map_cons,
        List.map_nil, List.sum_cons, List.sum_nil, List.length_map, List.length_cons,
        List.length_nil, add_zero, zero_add]
      push_cast
      field_simp
      ring

end Acc
