import Verif.Model.Weighted
import Verif.Proofs.Basic

/-! Helper lemmas for the weighted statistics. -/

set_option linter.unusedSectionVars false

namespace Acc

universe u
variable {K : Type u} [Field K]

theorem weightedSumRun_eq (x0 : K) (ps : List (K × K)) :
    weightedSumRun x0 ps = x0 + (ps.map (fun p => p.1 * p.2)).sum := by
  unfold weightedSumRun
  rw [mul_one]
  induction ps generalizing x0 with
  | nil => simp
  | cons p ps ih => rw [List.foldl_cons, ih]; simp [weightedSumStep, add_assoc]

theorem weightedKahanRun_eq (x0 : K) (ps : List (K × K)) :
    weightedKahanRun x0 ps = ⟨x0 + (ps.map (fun p => p.1 * p.2)).sum, 0⟩ := by
  unfold weightedKahanRun
  rw [mul_one]
  induction ps generalizing x0 with
  | nil => simp
  | cons p ps ih =>
    have : weightedKahanStep ⟨x0, 0⟩ p = ⟨x0 + p.1 * p.2, 0⟩ := by simp [weightedKahanStep]
    simp [this, ih, add_assoc]

theorem wsum_sq_dev (ps : List (K × K)) (c : K) :
    (ps.map (fun p => p.2 * (p.1 - c) ^ 2)).sum
      = (ps.map (fun p => p.2 * p.1 ^ 2)).sum - 2 * c * (ps.map (fun p => p.2 * p.1)).sum
        + (ps.map Prod.snd).sum * c ^ 2 := by
  induction ps with
  | nil => simp
  | cons x xs ih => simp only [List.map_cons, List.sum_cons, ih]; ring

theorem wsum_cube_dev (ps : List (K × K)) (c : K) :
    (ps.map (fun p => p.2 * (p.1 - c) ^ 3)).sum
      = (ps.map (fun p => p.2 * p.1 ^ 3)).sum - 3 * c * (ps.map (fun p => p.2 * p.1 ^ 2)).sum
        + 3 * c ^ 2 * (ps.map (fun p => p.2 * p.1)).sum - (ps.map Prod.snd).sum * c ^ 3 := by
  induction ps with
  | nil => simp
  | cons x xs ih => simp only [List.map_cons, List.sum_cons, ih]; ring

theorem wsum_four_dev (ps : List (K × K)) (c : K) :
    (ps.map (fun p => p.2 * (p.1 - c) ^ 4)).sum
      = (ps.map (fun p => p.2 * p.1 ^ 4)).sum - 4 * c * (ps.map (fun p => p.2 * p.1 ^ 3)).sum
        + 6 * c ^ 2 * (ps.map (fun p => p.2 * p.1 ^ 2)).sum
        - 4 * c ^ 3 * (ps.map (fun p => p.2 * p.1)).sum + (ps.map Prod.snd).sum * c ^ 4 := by
  induction ps with
  | nil => simp
  | cons x xs ih => simp only [List.map_cons, List.sum_cons, ih]; ring

theorem wsum_cross_dev (ps : List ((K × K) × K)) (a b : K) :
    (ps.map (fun p => p.2 * ((p.1.1 - a) * (p.1.2 - b)))).sum
      = (ps.map (fun p => p.2 * (p.1.1 * p.1.2))).sum - a * (ps.map (fun p => p.2 * p.1.2)).sum
        - b * (ps.map (fun p => p.2 * p.1.1)).sum + (ps.map Prod.snd).sum * (a * b) := by
  induction ps with
  | nil => simp
  | cons x xs ih => simp only [List.map_cons, List.sum_cons, ih]; ring

theorem wcentralTwo_eq {ps : List (K × K)} (h : Spec.wtotal ps ≠ 0) :
    Spec.wcentralMoment 2 ps = Spec.wrawMoment 2 ps - Spec.wmean ps * Spec.wmean ps := by
  unfold Spec.wcentralMoment Spec.wrawMoment
  rw [wsum_sq_dev]
  unfold Spec.wmean
  unfold Spec.wtotal at *
  field_simp
  ring

theorem wcentralThree_eq {ps : List (K × K)} (h : Spec.wtotal ps ≠ 0) :
    Spec.wcentralMoment 3 ps = Spec.wrawMoment 3 ps - 3 * Spec.wrawMoment 2 ps * Spec.wmean ps
      + 2 * Spec.wmean ps * Spec.wmean ps * Spec.wmean ps := by
  unfold Spec.wcentralMoment Spec.wrawMoment
  rw [wsum_cube_dev]
  unfold Spec.wmean
  unfold Spec.wtotal at *
  field_simp
  ring

theorem wcentralFour_eq {ps : List (K × K)} (h : Spec.wtotal ps ≠ 0) :
    Spec.wcentralMoment 4 ps = Spec.wrawMoment 4 ps - 4 * Spec.wrawMoment 3 ps * Spec.wmean ps
      + 6 * Spec.wrawMoment 2 ps * Spec.wmean ps * Spec.wmean ps
      - 3 * Spec.wmean ps * Spec.wmean ps * Spec.wmean ps * Spec.wmean ps := by
  unfold Spec.wcentralMoment Spec.wrawMoment
  rw [wsum_four_dev]
  unfold Spec.wmean
  unfold Spec.wtotal at *
  field_simp
  ring

theorem Spec.NonzeroPrefixes.init {X : Type*} {w : X → K} {ps : List X} {p : X}
    (h : Spec.NonzeroPrefixes w (ps ++ [p])) : Spec.NonzeroPrefixes w ps := by
  intro n h0 hn
  have := h n h0 (by simp; omega)
  rwa [List.take_append_of_le_length hn] at this

theorem Spec.NonzeroPrefixes.total {X : Type*} {w : X → K} {ps : List X}
    (h : Spec.NonzeroPrefixes w ps) (hne : ps ≠ []) : (ps.map w).sum ≠ 0 := by
  have := h ps.length (List.length_pos_of_ne_nil hne) le_rfl
  rwa [List.take_length] at this

theorem Spec.NonzeroPrefixes.map {X Y : Type*} {w : X → K} {w' : Y → K} {f : X → Y} {ps : List X}
    (hw : ∀ x, w' (f x) = w x) (h : Spec.NonzeroPrefixes w ps) :
    Spec.NonzeroPrefixes w' (ps.map f) := by
  intro n h0 hn
  rw [List.length_map] at hn
  rw [← List.map_take, List.map_map]
  have : w' ∘ f = w := funext hw
  rw [this]
  exact h n h0 hn

variable [DecidableEq K]

theorem lazyWMean_run (x0 : K) (ps : List (K × K)) :
    (lazyWMean x0).run ps =
      (⟨Spec.wtotal ps, x0 + (ps.map (fun p => p.2 * p.1)).sum⟩ : WSums K) := by
  induction ps using List.reverseRecOn with
  | nil => simp [MeanProvider.run, lazyWMean, Spec.wtotal]
  | append_singleton ps p ih =>
    unfold MeanProvider.run at *
    rw [List.foldl_append, ih]
    simp [lazyWMean, sumStep, weightedSumStep, Spec.wtotal, add_assoc, mul_comm]

/-- A provider of the weighted mean is correct if it returns `Σ wᵢxᵢ / Σ wᵢ` for every non-empty
stream all of whose partial weight sums are non-zero. -/
def MeanProvider.WCorrect (P : MeanProvider (K × K) K) : Prop :=
  ∀ ps : List (K × K), ps ≠ [] → Spec.NonzeroPrefixes Prod.snd ps →
    P.read (P.run ps) = .val (Spec.wmean ps)

theorem lazyWMean_correct : (lazyWMean (0 : K)).WCorrect := by
  intro ps hne h
  rw [lazyWMean_run]
  have : Spec.wtotal ps ≠ 0 := h.total hne
  simp [lazyWMean, Spec.wmean, fdiv, this]

theorem immWMean_run (x0 : K) (ps : List (K × K)) (h : Spec.NonzeroPrefixes Prod.snd ps) :
    (immWMean x0).run ps =
      (⟨Spec.wtotal ps, .val (if ps = [] then x0 else Spec.wmean ps)⟩ : WMean K) := by
  induction ps using List.reverseRecOn with
  | nil => simp [MeanProvider.run, immWMean, Spec.wtotal]
  | append_singleton ps p ih =>
    have ih := ih h.init
    unfold MeanProvider.run at *
    rw [List.foldl_append, ih]
    have hW : Spec.wtotal (ps ++ [p]) ≠ 0 := h.total (by simp)
    have e : Spec.wtotal (ps ++ [p]) = Spec.wtotal ps + p.2 := by simp [Spec.wtotal]
    simp only [List.foldl_cons, List.foldl_nil, immWMean, immWMeanStep, sumStep, Res.val_bind]
    rw [← e, fdiv_ne hW]
    by_cases hps : ps = []
    · subst hps
      simp only [if_true, List.nil_append, List.cons_ne_nil, if_false]
      simp [Spec.wtotal, Spec.wmean, mul_comm]
    · have hW0 : Spec.wtotal ps ≠ 0 := h.init.total hps
      simp only [hps, if_false, List.append_eq_nil_iff, false_and]
      congr 2
      rw [e] at hW ⊢
      unfold Spec.wmean
      rw [e]
      simp only [List.map_append, List.map_cons, List.map_nil, List.sum_append, List.sum_cons,
        List.sum_nil, add_zero, add_sub_cancel_right]
      field_simp

theorem immWMean_correct (x0 : K) : (immWMean x0).WCorrect := by
  intro ps hne h
  rw [immWMean_run x0 ps h]
  simp [immWMean, hne]

variable [CharZero K]

theorem weightedMomentRun_eq (N : ℕ) (x0 : K) (ps : List (K × K)) :
    weightedMomentRun N x0 ps =
      fdiv (x0 + (ps.map (fun p => p.2 * p.1 ^ N)).sum) (Spec.wtotal ps) := by
  have : ps.foldl (WMomentSt.push N) ⟨0, x0 * 1⟩ =
      ⟨Spec.wtotal ps, x0 + (ps.map (fun p => p.2 * p.1 ^ N)).sum⟩ := by
    induction ps using List.reverseRecOn with
    | nil => simp [Spec.wtotal]
    | append_singleton ps p ih =>
      rw [List.foldl_append, ih]
      simp [WMomentSt.push, mpow_eq, Spec.wtotal, sumStep, add_assoc]
  unfold weightedMomentRun
  rw [this]

theorem wvariance_foldl (P : MeanProvider (K × K) K) (hP : P.WCorrect) (ps : List (K × K))
    (h : Spec.NonzeroPrefixes Prod.snd ps) :
    ps.foldl (WVarianceSt.push P) ⟨P.init, 0, 0, fdiv 0 1⟩
      = ⟨P.run ps, Spec.wtotal ps, ps.length,
          .val (if ps = [] then 0 else Spec.wvariance ps)⟩ := by
  induction ps using List.reverseRecOn with
  | nil => simp [MeanProvider.run, Spec.wtotal]
  | append_singleton ps p ih =>
    rw [List.foldl_append, ih h.init]
    have hr : P.push (P.run ps) p = P.run (ps ++ [p]) := by simp [MeanProvider.run]
    have hW : Spec.wtotal (ps ++ [p]) ≠ 0 := h.total (by simp)
    have e : Spec.wtotal (ps ++ [p]) = Spec.wtotal ps + p.2 := by simp [Spec.wtotal]
    simp only [List.foldl_cons, List.foldl_nil, WVarianceSt.push, hr, hP (ps ++ [p]) (by simp) h,
      sumStep]
    by_cases hps : ps = []
    · subst hps
      have hp : p.2 ≠ 0 := by simpa [Spec.wtotal] using hW
      simp [weightedVarianceStep, Spec.wvariance, Spec.wcentralMoment, Spec.wmean, Spec.wtotal, hp]
    · have hW0 : Spec.wtotal ps ≠ 0 := h.init.total hps
      have hlen : ps.length + 1 > 1 := by
        have := List.length_pos_iff.mpr hps; omega
      simp only [weightedVarianceStep, hlen, if_true, hps, if_false, Res.val_bind,
        List.append_eq_nil_iff, List.cons_ne_nil, and_false, add_sub_cancel_right]
      rw [← e, fdiv_ne hW, fdiv_ne hW0]
      simp only [Res.val_bind, Res.pure_eq, WVarianceSt.mk.injEq, Res.val.injEq, true_and,
        List.length_append, List.length_cons, List.length_nil, zero_add]
      unfold Spec.wvariance
      rw [wcentralTwo_eq hW0, wcentralTwo_eq hW]
      rw [e] at hW
      simp only [Spec.wmean, Spec.wrawMoment, e, List.map_append, List.map_cons, List.map_nil,
        List.sum_append, List.sum_cons, List.sum_nil, add_zero]
      field_simp
      ring

theorem wcovariance_eq {ps : List ((K × K) × K)} (h : (ps.map Prod.snd).sum ≠ 0) :
    Spec.wcovariance ps = (ps.map (fun p => p.2 * (p.1.1 * p.1.2))).sum / (ps.map Prod.snd).sum
      - (ps.map (fun p => p.2 * p.1.1)).sum / (ps.map Prod.snd).sum
        * ((ps.map (fun p => p.2 * p.1.2)).sum / (ps.map Prod.snd).sum) := by
  unfold Spec.wcovariance
  rw [wsum_cross_dev]
  simp only [Spec.wmean, Spec.wtotal, List.map_map, Function.comp_def]
  field_simp
  ring

theorem wcovariance_foldl (P Q : MeanProvider (K × K) K) (hP : P.WCorrect) (hQ : Q.WCorrect)
    (ps : List ((K × K) × K)) (h : Spec.NonzeroPrefixes Prod.snd ps) :
    ps.foldl (WCovSt.push P Q) ⟨P.init, Q.init, 0, 0, .val 0⟩
      = ⟨P.run (ps.map (fun q => (q.1.1, q.2))), Q.run (ps.map (fun q => (q.1.2, q.2))),
          (ps.map Prod.snd).sum, ps.length,
          .val (if ps = [] then 0 else Spec.wcovariance ps)⟩ := by
  induction ps using List.reverseRecOn with
  | nil => simp [MeanProvider.run]
  | append_singleton ps p ih =>
    rw [List.foldl_append, ih h.init]
    have hr : P.push (P.run (ps.map (fun q => (q.1.1, q.2)))) (p.1.1, p.2)
        = P.run ((ps ++ [p]).map (fun q => (q.1.1, q.2))) := by simp [MeanProvider.run]
    have hr' : Q.push (Q.run (ps.map (fun q => (q.1.2, q.2)))) (p.1.2, p.2)
        = Q.run ((ps ++ [p]).map (fun q => (q.1.2, q.2))) := by simp [MeanProvider.run]
    have hW := h.total (by simp : ps ++ [p] ≠ [])
    have hx := hP ((ps ++ [p]).map (fun q => (q.1.1, q.2))) (by simp) (h.map (fun _ => rfl))
    have hy := hQ ((ps ++ [p]).map (fun q => (q.1.2, q.2))) (by simp) (h.map (fun _ => rfl))
    have e : ((ps ++ [p]).map Prod.snd).sum = (ps.map Prod.snd).sum + p.2 := by simp
    simp only [List.foldl_cons, List.foldl_nil, WCovSt.push, hr, hr', hx, hy, sumStep]
    by_cases hps : ps = []
    · subst hps
      have hp : p.2 ≠ 0 := by simpa using hW
      simp [weightedCovarianceStep, Spec.wcovariance, Spec.wmean, Spec.wtotal, hp]
    · have hW0 := h.init.total hps
      have hlen : ps.length + 1 > 1 := by
        have := List.length_pos_iff.mpr hps; omega
      simp only [weightedCovarianceStep, hlen, if_true, hps, if_false, Res.val_bind,
        List.append_eq_nil_iff, List.cons_ne_nil, and_false, add_sub_cancel_right]
      rw [← e, fdiv_ne hW, fdiv_ne hW0]
      simp only [Res.val_bind, Res.pure_eq, WCovSt.mk.injEq, Res.val.injEq, true_and,
        List.length_append, List.length_cons, List.length_nil, zero_add]
      rw [wcovariance_eq hW0, wcovariance_eq hW]
      rw [e] at hW
      simp only [Spec.wmean, Spec.wtotal, List.map_map, Function.comp_def, List.map_append,
        List.map_cons, List.map_nil, List.sum_append, List.sum_cons, List.sum_nil, add_zero]
      generalize hA : (ps.map (fun x => x.2 * x.1.1)).sum = A
      generalize hB : (ps.map (fun x => x.2 * x.1.2)).sum = B
      have hW1 : (ps.map (fun x => x.2)).sum ≠ 0 := hW0
      have hW2 : (ps.map (fun x => x.2)).sum + p.2 ≠ 0 := hW
      change _ = _ at *
      have e3 : ps.map Prod.snd = ps.map (fun x => x.2) := rfl
      rw [e3]
      field_simp
      ring

end Acc
