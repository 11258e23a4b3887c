import Verif.Model.Cplx
import Verif.Proofs.Weighted
import Mathlib.Analysis.Complex.Basic
import Mathlib.Data.List.Induction

/-!
# Complex samples: the computations are those of the field `ℂ`

Every accumulator instantiated with `std::complex` is simulated by the same accumulator over `ℂ`, to which the theorems
on fields apply.
-/

set_option linter.unusedSectionVars false

namespace Acc.Cx

open Complex

/-- The complex number a `std::complex<T>` stands for (`T` exact). -/
def toC (z : Cx ℝ) : ℂ := ⟨z.re, z.im⟩

@[simp] theorem toC_re (z : Cx ℝ) : (toC z).re = z.re := rfl
@[simp] theorem toC_im (z : Cx ℝ) : (toC z).im = z.im := rfl

theorem toC_inj {z w : Cx ℝ} (h : toC z = toC w) : z = w := by
  cases z; cases w
  simpa [toC] using h

@[simp] theorem add_re (z w : Cx ℝ) : (z + w).re = z.re + w.re := rfl
@[simp] theorem add_im (z w : Cx ℝ) : (z + w).im = z.im + w.im := rfl
@[simp] theorem sub_re (z w : Cx ℝ) : (z - w).re = z.re - w.re := rfl
@[simp] theorem sub_im (z w : Cx ℝ) : (z - w).im = z.im - w.im := rfl
@[simp] theorem mul_re (z w : Cx ℝ) : (z * w).re = z.re * w.re - z.im * w.im := rfl
@[simp] theorem mul_im (z w : Cx ℝ) : (z * w).im = z.re * w.im + z.im * w.re := rfl
@[simp] theorem scale_re (z : Cx ℝ) (u : ℝ) : (scale z u).re = z.re * u := rfl
@[simp] theorem scale_im (z : Cx ℝ) (u : ℝ) : (scale z u).im = z.im * u := rfl

@[simp] theorem toC_add (z w : Cx ℝ) : toC (z + w) = toC z + toC w := by
  apply Complex.ext <;> simp
@[simp] theorem toC_sub (z w : Cx ℝ) : toC (z - w) = toC z - toC w := by
  apply Complex.ext <;> simp
@[simp] theorem toC_mul (z w : Cx ℝ) : toC (z * w) = toC z * toC w := by
  apply Complex.ext <;> simp
@[simp] theorem toC_zero : toC 0 = 0 := rfl
@[simp] theorem toC_scale (z : Cx ℝ) (u : ℝ) : toC (scale z u) = toC z * (u : ℂ) := by
  apply Complex.ext <;> simp

/-- A result, as a complex number. -/
def mapC : Res (Cx ℝ) → Res ℂ
  | .val z => .val (toC z)
  | .nonfinite => .nonfinite
  | .thrown => .thrown
  | .ub => .ub
  | .diverges => .diverges

@[simp] theorem mapC_val (z : Cx ℝ) : mapC (.val z) = .val (toC z) := rfl

theorem mapC_eq_val {r : Res (Cx ℝ)} {c : ℂ} (h : mapC r = .val c) : ∃ z, r = .val z ∧ toC z = c := by
  cases r with
  | val z => exact ⟨z, rfl, by simpa using h⟩
  | _ => simp [mapC] at h

/-- Sequencing commutes with the translation. -/
theorem mapC_bind (r : Res (Cx ℝ)) (f : Cx ℝ → Res (Cx ℝ)) (g : ℂ → Res ℂ) (h : ∀ z, mapC (f z) = g (toC z)) :
    mapC (r >>= f) = mapC r >>= g := by
  cases r with
  | val z => exact h z
  | _ => rfl

/-- … also when the first part is translated separately. -/
theorem mapC_bind' {r : Res (Cx ℝ)} {r' : Res ℂ} {f : Cx ℝ → Res (Cx ℝ)} {g : ℂ → Res ℂ} (hr : mapC r = r')
    (h : ∀ z, mapC (f z) = g (toC z)) : mapC (r >>= f) = r' >>= g := by
  rw [mapC_bind r f g h, hr]

@[simp] theorem mapC_divS (z : Cx ℝ) (u : ℝ) : mapC (divS z u) = fdiv (toC z) (u : ℂ) := by
  by_cases hu : u = 0
  · subst hu; simp [divS, fdiv, mapC]
  · have hc : (u : ℂ) ≠ 0 := by exact_mod_cast hu
    simp only [divS, fdiv_ne hu, Res.val_bind, Res.pure_eq, mapC_val, fdiv_ne hc]
    congr 1
    apply Complex.ext
    · simp [Complex.div_ofReal_re]
    · simp [Complex.div_ofReal_im]

@[simp] theorem mapC_pure_add (a b : Cx ℝ) : mapC (pure (a + b)) = .val (toC a + toC b) := by simp

theorem toC_mpow (z : Cx ℝ) (n : ℕ) : toC (mpow z n) = Acc.mpow (toC z) n := by
  induction n using Nat.strong_induction_on with
  | _ n ih =>
    unfold mpow Acc.mpow
    split
    · rfl
    · split
      · rfl
      · have := ih (n / 2) (by omega)
        simp only [← this]
        split <;> simp

/-- A provider over `std::complex` behaves as one over `ℂ`. -/
def Sim {X Y : Type} (t : X → Y) (P : MeanProvider X (Cx ℝ)) (P' : MeanProvider Y ℂ) : Prop :=
  ∀ xs, mapC (P.read (P.run xs)) = P'.read (P'.run (xs.map t))

theorem lazyMean_sim (x0 : Cx ℝ) : Sim toC (lazyMean x0) (Acc.lazyMean (toC x0)) := by
  intro xs
  have : ((Acc.lazyMean (toC x0)).run (xs.map toC) : Acc.CountSum ℂ)
      = ⟨((lazyMean x0).run xs : CountSum ℝ).cnt, toC ((lazyMean x0).run xs : CountSum ℝ).sum⟩ := by
    induction xs using List.reverseRecOn with
    | nil => rfl
    | append_singleton xs x ih =>
      simp only [MeanProvider.run, List.map_append, List.map_cons, List.map_nil, List.foldl_append,
        List.foldl_cons, List.foldl_nil] at ih ⊢
      rw [ih]
      simp [lazyMean, Acc.lazyMean, sumStep]
  show mapC (divS _ _) = fdiv _ _
  rw [this]
  simp [lazyMean]

theorem immMean_sim (x0 : Cx ℝ) : Sim toC (immMean x0) (Acc.immMean (toC x0)) := by
  intro xs
  have : ((Acc.immMean (toC x0)).run (xs.map toC) : Acc.CountMean ℂ)
      = ⟨((immMean x0).run xs : CountMean ℝ).cnt, mapC ((immMean x0).run xs : CountMean ℝ).mean⟩ := by
    induction xs using List.reverseRecOn with
    | nil => simp [MeanProvider.run, immMean, Acc.immMean]
    | append_singleton xs x ih =>
      simp only [MeanProvider.run, List.map_append, List.map_cons, List.map_nil, List.foldl_append,
        List.foldl_cons, List.foldl_nil] at ih ⊢
      rw [ih]
      simp only [immMean, Acc.immMean, immMeanStep, Acc.immMeanStep, Acc.CountMean.mk.injEq, true_and]
      symm
      apply mapC_bind
      intro z
      simp
  show mapC _ = _
  rw [this]
  rfl

theorem momentRun_sim (N : ℕ) (x0 : Cx ℝ) (xs : List (Cx ℝ)) :
    mapC (momentRun N x0 xs) = Acc.momentRun N (toC x0) (xs.map toC) := by
  have : (xs.map toC).foldl (MomentSt.push N) (MomentSt.init (toC x0))
      = ⟨(xs.foldl (fun (s : CountSum ℝ) z => ⟨s.cnt + 1, s.sum + mpow z N⟩) ⟨0, x0⟩).cnt,
          toC (xs.foldl (fun (s : CountSum ℝ) z => ⟨s.cnt + 1, s.sum + mpow z N⟩) ⟨0, x0⟩).sum⟩ := by
    induction xs using List.reverseRecOn with
    | nil => rfl
    | append_singleton xs x ih =>
      simp only [List.map_append, List.map_cons, List.map_nil, List.foldl_append, List.foldl_cons,
        List.foldl_nil, ih]
      simp [MomentSt.push, toC_mpow]
  simp only [momentRun, Acc.momentRun, this, MomentSt.result]
  simp

theorem lazyVarianceRun_sim {P : MeanProvider (Cx ℝ) (Cx ℝ)} {P' : MeanProvider ℂ ℂ} (hP : Sim toC P P')
    (xs : List (Cx ℝ)) : mapC (lazyVarianceRun P xs) = Acc.lazyVarianceRun P' 0 (xs.map toC) := by
  have hm := momentRun_sim 2 0 xs
  rw [toC_zero] at hm
  simp only [lazyVarianceRun, Acc.lazyVarianceRun, lazyVarianceResult, ← hP xs, ← hm]
  apply mapC_bind
  intro z
  apply mapC_bind
  intro w
  simp

theorem varianceStep_sim (cnt : ℕ) (m v : Res (Cx ℝ)) (x : Cx ℝ) :
    mapC (varianceStep cnt m v x) = Acc.varianceStep cnt (mapC m) (mapC v) (toC x) := by
  simp only [varianceStep, Acc.varianceStep]
  split
  · refine mapC_bind' rfl fun m => mapC_bind' rfl fun v => mapC_bind' (by simp) fun a => mapC_bind' (by simp) fun b => ?_
    simp
  · rfl

theorem varianceRun_sim {P : MeanProvider (Cx ℝ) (Cx ℝ)} {P' : MeanProvider ℂ ℂ} (hP : Sim toC P P')
    (xs : List (Cx ℝ)) : mapC (varianceRun P xs) = Acc.varianceRun P' 0 (xs.map toC) := by
  have key : ∀ xs : List (Cx ℝ), ∃ v, xs.foldl (VarianceSt.push P) ⟨P.init, 0, divS 0 1⟩ = ⟨P.run xs, xs.length, v⟩ ∧
      (xs.map toC).foldl (Acc.VarianceSt.push P') (Acc.VarianceSt.init P' 0)
        = ⟨P'.run (xs.map toC), xs.length, mapC v⟩ := by
    intro xs
    induction xs using List.reverseRecOn with
    | nil => exact ⟨_, rfl, by simp [Acc.VarianceSt.init, MeanProvider.run]⟩
    | append_singleton xs x ih =>
      obtain ⟨v, h1, h2⟩ := ih
      have r1 : P.push (P.run xs) x = P.run (xs ++ [x]) := by simp [MeanProvider.run]
      have r2 : P'.push (P'.run (xs.map toC)) (toC x) = P'.run ((xs ++ [x]).map toC) := by
        simp [MeanProvider.run]
      refine ⟨varianceStep (xs.length + 1) (P.read (P.run (xs ++ [x]))) v x, ?_, ?_⟩
      · rw [List.foldl_append, h1]
        simp only [List.foldl_cons, List.foldl_nil, VarianceSt.push, r1, List.length_append, List.length_singleton]
      · rw [varianceStep_sim, hP, ← r2, List.map_append, List.foldl_append, h2]
        simp [Acc.VarianceSt.push]
  obtain ⟨v, h1, h2⟩ := key xs
  rw [varianceRun, Acc.varianceRun, h1, h2]

theorem covarianceStep_sim (cnt : ℕ) (mx my c : Res (Cx ℝ)) (x y : Cx ℝ) :
    mapC (covarianceStep cnt mx my c x y)
      = Acc.covarianceStep cnt (mapC mx) (mapC my) (mapC c) (toC x) (toC y) := by
  simp only [covarianceStep, Acc.covarianceStep]
  split
  · refine mapC_bind' rfl fun c => mapC_bind' (by simp) fun a => mapC_bind' rfl fun m => mapC_bind' rfl fun m' =>
      mapC_bind' (by simp) fun b => ?_
    simp
  · rfl

/-- Both components of a pair. -/
def toC2 (p : Cx ℝ × Cx ℝ) : ℂ × ℂ := (toC p.1, toC p.2)

theorem covarianceRun_sim {P Q : MeanProvider (Cx ℝ) (Cx ℝ)} {P' Q' : MeanProvider ℂ ℂ} (hP : Sim toC P P')
    (hQ : Sim toC Q Q') (ps : List (Cx ℝ × Cx ℝ)) :
    mapC (covarianceRun P Q ps) = Acc.covarianceRun P' Q' 0 0 (ps.map toC2) := by
  have key : ∀ ps : List (Cx ℝ × Cx ℝ), ∃ v,
      ps.foldl (CovSt.push P Q) ⟨P.init, Q.init, 0, do let a ← divS 0 1; let b ← divS 0 1; return a * b⟩
        = ⟨P.run (ps.map Prod.fst), Q.run (ps.map Prod.snd), ps.length, v⟩ ∧
      (ps.map toC2).foldl (Acc.CovSt.push P' Q') (Acc.CovSt.init P' Q' 0 0)
        = ⟨P'.run ((ps.map Prod.fst).map toC), Q'.run ((ps.map Prod.snd).map toC), ps.length, mapC v⟩ := by
    intro ps
    induction ps using List.reverseRecOn with
    | nil =>
      refine ⟨_, rfl, ?_⟩
      simp only [List.map_nil, List.foldl_nil, Acc.CovSt.init, MeanProvider.run, List.length_nil,
        Acc.CovSt.mk.injEq, true_and]
      symm
      refine mapC_bind' (by simp) fun a => mapC_bind' (by simp) fun b => by simp
    | append_singleton ps p ih =>
      obtain ⟨v, h1, h2⟩ := ih
      have r1 : P.push (P.run (ps.map Prod.fst)) p.1 = P.run ((ps ++ [p]).map Prod.fst) := by simp [MeanProvider.run]
      have r1' : Q.push (Q.run (ps.map Prod.snd)) p.2 = Q.run ((ps ++ [p]).map Prod.snd) := by simp [MeanProvider.run]
      have r2 : P'.push (P'.run ((ps.map Prod.fst).map toC)) (toC p.1) = P'.run (((ps ++ [p]).map Prod.fst).map toC) := by
        simp [MeanProvider.run]
      have r2' : Q'.push (Q'.run ((ps.map Prod.snd).map toC)) (toC p.2)
          = Q'.run (((ps ++ [p]).map Prod.snd).map toC) := by
        simp [MeanProvider.run]
      refine ⟨covarianceStep (ps.length + 1) (P.read (P.run ((ps ++ [p]).map Prod.fst)))
        (Q.read (Q.run ((ps ++ [p]).map Prod.snd))) v p.1 p.2, ?_, ?_⟩
      · rw [List.foldl_append, h1]
        simp only [List.foldl_cons, List.foldl_nil, CovSt.push, r1, r1', List.length_append, List.length_singleton]
      · rw [covarianceStep_sim, hP, hQ, ← r2, ← r2', List.map_append, List.foldl_append, h2]
        simp [Acc.CovSt.push, toC2]
  obtain ⟨v, h1, h2⟩ := key ps
  rw [covarianceRun, Acc.covarianceRun, h1, h2]

/-! ## Real weights -/

/-- A weighted sample. -/
def toCW (p : Cx ℝ × ℝ) : ℂ × ℂ := (toC p.1, (p.2 : ℂ))

theorem weightedSumRun_sim (x0 : Cx ℝ) (ps : List (Cx ℝ × ℝ)) :
    toC (weightedSumRun x0 ps) = Acc.weightedSumRun (toC x0) (ps.map toCW) := by
  induction ps using List.reverseRecOn with
  | nil => simp [weightedSumRun, Acc.weightedSumRun]
  | append_singleton ps p ih =>
    simp only [weightedSumRun, Acc.weightedSumRun, List.map_append, List.map_cons, List.map_nil, List.foldl_append,
      List.foldl_cons, List.foldl_nil] at ih ⊢
    rw [← ih]
    simp [weightedSumStep, Acc.weightedSumStep, toCW]

theorem lazyWMean_sim (x0 : Cx ℝ) : Sim toCW (lazyWMean x0) (Acc.lazyWMean (toC x0)) := by
  intro xs
  have : ((Acc.lazyWMean (toC x0)).run (xs.map toCW) : Acc.WSums ℂ)
      = ⟨(((lazyWMean x0).run xs : WSums ℝ).sumW : ℂ), toC ((lazyWMean x0).run xs : WSums ℝ).wsum⟩ := by
    induction xs using List.reverseRecOn with
    | nil => simp [MeanProvider.run, lazyWMean, Acc.lazyWMean]
    | append_singleton xs x ih =>
      simp only [MeanProvider.run, List.map_append, List.map_cons, List.map_nil, List.foldl_append,
        List.foldl_cons, List.foldl_nil] at ih ⊢
      rw [ih]
      simp [lazyWMean, Acc.lazyWMean, sumStep, weightedSumStep, Acc.weightedSumStep, toCW]
  show mapC (divS _ _) = fdiv _ _
  rw [this]
  simp [lazyWMean]

theorem immWMean_sim (x0 : Cx ℝ) : Sim toCW (immWMean x0) (Acc.immWMean (toC x0)) := by
  intro xs
  have : ((Acc.immWMean (toC x0)).run (xs.map toCW) : Acc.WMean ℂ)
      = ⟨(((immWMean x0).run xs : WMean ℝ).sumW : ℂ), mapC ((immWMean x0).run xs : WMean ℝ).mean⟩ := by
    induction xs using List.reverseRecOn with
    | nil => simp [MeanProvider.run, immWMean, Acc.immWMean]
    | append_singleton xs x ih =>
      simp only [MeanProvider.run, List.map_append, List.map_cons, List.map_nil, List.foldl_append,
        List.foldl_cons, List.foldl_nil] at ih ⊢
      rw [ih]
      simp only [immWMean, Acc.immWMean, immWMeanStep, Acc.immWMeanStep, Acc.WMean.mk.injEq, sumStep, toCW,
        Complex.ofReal_add, true_and]
      symm
      apply mapC_bind
      intro z
      simp
  show mapC _ = _
  rw [this]
  rfl

theorem weightedMomentRun_sim (N : ℕ) (x0 : Cx ℝ) (ps : List (Cx ℝ × ℝ)) :
    mapC (weightedMomentRun N x0 ps) = Acc.weightedMomentRun N (toC x0) (ps.map toCW) := by
  have : (ps.map toCW).foldl (WMomentSt.push N) ⟨0, toC x0 * 1⟩
      = ⟨((ps.foldl (fun (s : WSums ℝ) p => ⟨sumStep s.sumW p.2, s.wsum + scale (mpow p.1 N) p.2⟩)
            ⟨0, scale x0 1⟩).sumW : ℂ),
          toC (ps.foldl (fun (s : WSums ℝ) p => ⟨sumStep s.sumW p.2, s.wsum + scale (mpow p.1 N) p.2⟩)
            ⟨0, scale x0 1⟩).wsum⟩ := by
    induction ps using List.reverseRecOn with
    | nil => simp
    | append_singleton ps p ih =>
      simp only [List.map_append, List.map_cons, List.map_nil, List.foldl_append, List.foldl_cons,
        List.foldl_nil, ih]
      simp [WMomentSt.push, toC_mpow, toCW, sumStep, mul_comm]
  simp only [weightedMomentRun, Acc.weightedMomentRun, this]
  simp

theorem lazyWeightedVarianceRun_sim {P : MeanProvider (Cx ℝ × ℝ) (Cx ℝ)} {P' : MeanProvider (ℂ × ℂ) ℂ}
    (hP : Sim toCW P P') (ps : List (Cx ℝ × ℝ)) :
    mapC (lazyWeightedVarianceRun P ps) = Acc.lazyWeightedVarianceRun P' (ps.map toCW) := by
  have hm := weightedMomentRun_sim 2 0 ps
  rw [toC_zero] at hm
  simp only [lazyWeightedVarianceRun, Acc.lazyWeightedVarianceRun, lazyVarianceResult, ← hP ps, ← hm]
  exact mapC_bind' rfl fun z => mapC_bind' rfl fun w => by simp

theorem weightedVarianceStep_sim (cnt : ℕ) (W : ℝ) (m v : Res (Cx ℝ)) (p : Cx ℝ × ℝ) :
    mapC (weightedVarianceStep cnt W m v p) = Acc.weightedVarianceStep cnt (W : ℂ) (mapC m) (mapC v) (toCW p) := by
  simp only [weightedVarianceStep, Acc.weightedVarianceStep, toCW]
  split
  · refine mapC_bind' rfl fun m => mapC_bind' rfl fun v => mapC_bind' (by simp) fun a => mapC_bind' (by simp) fun b => ?_
    simp
  · rfl

theorem weightedVarianceRun_sim {P : MeanProvider (Cx ℝ × ℝ) (Cx ℝ)} {P' : MeanProvider (ℂ × ℂ) ℂ}
    (hP : Sim toCW P P') (ps : List (Cx ℝ × ℝ)) :
    mapC (weightedVarianceRun P ps) = Acc.weightedVarianceRun P' 0 (ps.map toCW) := by
  have key : ∀ ps : List (Cx ℝ × ℝ), ∃ W v,
      ps.foldl (WVarianceSt.push P) ⟨P.init, 0, 0, divS 0 1⟩ = ⟨P.run ps, W, ps.length, v⟩ ∧
      (ps.map toCW).foldl (Acc.WVarianceSt.push P') ⟨P'.init, 0, 0, fdiv 0 1⟩
        = ⟨P'.run (ps.map toCW), (W : ℂ), ps.length, mapC v⟩ := by
    intro ps
    induction ps using List.reverseRecOn with
    | nil => exact ⟨0, _, rfl, by simp [MeanProvider.run]⟩
    | append_singleton ps p ih =>
      obtain ⟨W, v, h1, h2⟩ := ih
      have r1 : P.push (P.run ps) p = P.run (ps ++ [p]) := by simp [MeanProvider.run]
      have r2 : P'.push (P'.run (ps.map toCW)) (toCW p) = P'.run ((ps ++ [p]).map toCW) := by
        simp [MeanProvider.run]
      refine ⟨W + p.2, weightedVarianceStep (ps.length + 1) (W + p.2) (P.read (P.run (ps ++ [p]))) v p, ?_, ?_⟩
      · rw [List.foldl_append, h1]
        simp only [List.foldl_cons, List.foldl_nil, WVarianceSt.push, r1, List.length_append, List.length_singleton,
          sumStep]
      · rw [weightedVarianceStep_sim, hP, ← r2, List.map_append, List.foldl_append, h2]
        simp [Acc.WVarianceSt.push, sumStep, toCW]
  obtain ⟨W, v, h1, h2⟩ := key ps
  rw [weightedVarianceRun, Acc.weightedVarianceRun, h1, h2]

end Acc.Cx
