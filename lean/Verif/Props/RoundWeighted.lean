import Verif.Props.Round
import Verif.Model.Weighted

/-!
# C78: weighted means and moments in floating point arithmetic
-/

set_option linter.unusedSectionVars false

namespace Acc

variable {K : Type} [Field K] [LinearOrder K] [IsStrictOrderedRing K] {R : Rounding K} {u : K}

/-! ## The sum of the weights -/

theorem weights_nonneg {A : Type} (w : A → Fl R) {l : List A} (hw : ∀ a ∈ l, 0 ≤ (w a).val) :
    0 ≤ (l.map fun a => (w a).val).sum :=
  List.sum_nonneg (by simp only [List.mem_map]; rintro _ ⟨a, ha, rfl⟩; exact hw a ha)

/-- The computed sum of non-negative weights is at least as large as the last one, and its relative error is bounded
from both sides. -/
theorem sumW_err (hu : R.RelErr u) (hu1 : u < 1) {A : Type} (w : A → Fl R) (l : List A)
    (hw : ∀ a ∈ l, 0 ≤ (w a).val) :
    (1 - u) ^ l.length * (l.map fun a => (w a).val).sum ≤ (sumRun w 0 l).val ∧
      (sumRun w 0 l).val ≤ (1 + u) ^ l.length * (l.map fun a => (w a).val).sum := by
  have h0 := hu.nonneg
  induction l using List.reverseRecOn with
  | nil => simp [sumRun]
  | append_singleton l a ih =>
    have hwl : ∀ b ∈ l, 0 ≤ (w b).val := fun b hb => hw b (by simp [hb])
    have ha : 0 ≤ (w a).val := hw a (by simp)
    obtain ⟨i1, i2⟩ := ih hwl
    have hs := weights_nonneg w hwl
    have e : sumRun w 0 (l ++ [a]) = sumRun w 0 l + w a := by simp [sumRun, sumStep, List.foldl_append]
    rw [e, Fl.val_add]
    simp only [List.map_append, List.map_cons, List.map_nil, List.sum_append, List.sum_cons, List.sum_nil, add_zero,
      List.length_append, List.length_cons, List.length_nil, zero_add]
    have hp1 : (1 - u) ^ l.length ≤ 1 := pow_le_one₀ (by linarith) (by linarith)
    have hp0 : 0 ≤ (1 - u) ^ l.length := pow_nonneg (by linarith) _
    have hq1 : 1 ≤ (1 + u) ^ l.length := one_le_pow₀ (by linarith)
    obtain ⟨S, hS⟩ : ∃ S, S = (sumRun w 0 l).val := ⟨_, rfl⟩
    rw [← hS] at i1 i2 ⊢
    have hS0 : 0 ≤ S := le_trans (mul_nonneg hp0 hs) i1
    have hr := hu (S + (w a).val)
    rw [abs_of_nonneg (add_nonneg hS0 ha), abs_le] at hr
    constructor
    · have h1 : (1 - u) * (S + (w a).val) ≤ R.rd (S + (w a).val) := by linarith [hr.1]
      refine le_trans ?_ h1
      rw [pow_succ]
      have h2 : (1 - u) ^ l.length * (w a).val ≤ (w a).val := by nlinarith
      have h3 : (1 - u) ^ l.length * ((l.map fun a => (w a).val).sum + (w a).val) ≤ S + (w a).val := by
        rw [mul_add]; linarith
      calc (1 - u) ^ l.length * (1 - u) * ((l.map fun a => (w a).val).sum + (w a).val)
          = (1 - u) * ((1 - u) ^ l.length * ((l.map fun a => (w a).val).sum + (w a).val)) := by ring
        _ ≤ _ := mul_le_mul_of_nonneg_left h3 (by linarith)
    · have h1 : R.rd (S + (w a).val) ≤ (1 + u) * (S + (w a).val) := by linarith [hr.2]
      refine h1.trans ?_
      rw [pow_succ]
      have h2 : (w a).val ≤ (1 + u) ^ l.length * (w a).val := by nlinarith
      have h3 : S + (w a).val ≤ (1 + u) ^ l.length * ((l.map fun a => (w a).val).sum + (w a).val) := by
        rw [mul_add]; linarith
      calc (1 + u) * (S + (w a).val)
          ≤ (1 + u) * ((1 + u) ^ l.length * ((l.map fun a => (w a).val).sum + (w a).val)) :=
            mul_le_mul_of_nonneg_left h3 (by linarith)
        _ = _ := by ring

/-- The relative error of the sum of the weights, in a symmetric form. -/
theorem sumW_bounds (hu : R.RelErr u) (hu1 : u < 1) {A : Type} (w : A → Fl R) (l : List A)
    (hw : ∀ a ∈ l, 0 ≤ (w a).val) :
    (1 - u) ^ l.length * (l.map fun a => (w a).val).sum ≤ (sumRun w 0 l).val ∧
      (1 - u) ^ l.length * (sumRun w 0 l).val ≤ (l.map fun a => (w a).val).sum := by
  have h0 := hu.nonneg
  obtain ⟨h1, h2⟩ := sumW_err hu hu1 w l hw
  refine ⟨h1, ?_⟩
  have hp0 : 0 ≤ (1 - u) ^ l.length := pow_nonneg (by linarith) _
  refine (mul_le_mul_of_nonneg_left h2 hp0).trans ?_
  rw [← mul_assoc, ← mul_pow]
  have : ((1 - u) * (1 + u)) ^ l.length ≤ 1 := pow_le_one₀ (by nlinarith) (by nlinarith)
  have hs := weights_nonneg w hw
  nlinarith

/-- The relative error of the inverse. -/
theorem inv_weights {p : K} (hp : 0 < p) (hp1 : p ≤ 1) {W Wc : K} (hW : 0 < W) (h1 : p * W ≤ Wc) (h2 : p * Wc ≤ W) :
    |(W - Wc) / (Wc * W)| ≤ (1 / p - 1) / W := by
  have hWc : 0 < Wc := lt_of_lt_of_le (mul_pos hp hW) h1
  rw [abs_div, abs_of_pos (mul_pos hWc hW), div_le_div_iff₀ (mul_pos hWc hW) hW, ← mul_assoc]
  refine mul_le_mul_of_nonneg_right ?_ hW.le
  rw [abs_le]
  have hpp : 1 / p * p = 1 := by field_simp
  have hinv : 1 ≤ 1 / p := by rw [le_div_iff₀ hp]; linarith
  have c1 : 1 / p * (p * W) ≤ 1 / p * Wc := mul_le_mul_of_nonneg_left h1 (by linarith)
  rw [← mul_assoc, hpp, one_mul] at c1
  constructor
  · have c2 : (1 - 1 / p) * Wc ≤ (p - 1) * Wc := by
      refine mul_le_mul_of_nonneg_right ?_ hWc.le
      nlinarith [sq_nonneg (p - 1)]
    nlinarith
  · nlinarith

/-- Division of a sum by the computed sum of weights. -/
theorem div_weights_err (hu : R.RelErr u) {p : K} (hp : 0 < p) (hp1 : p ≤ 1) {W : K} (hW : 0 < W)
    {Wc s : Fl R} (h1 : p * W ≤ Wc.val) (h2 : p * Wc.val ≤ W) {t a d : K} (hd : 0 ≤ d)
    (ht : |t| ≤ a) (h : |s.val - t| ≤ d * a) :
    ∃ m : Fl R, fdiv s Wc = .val m ∧ |m.val - t / W| ≤ ((1 + u) * ((1 + d) / p) - 1) * (a / W) := by
  have hWc : 0 < Wc.val := lt_of_lt_of_le (mul_pos hp hW) h1
  have hne : Wc ≠ 0 := fun e => by rw [e, Fl.val_zero] at hWc; exact lt_irrefl _ hWc
  have ha : 0 ≤ a := (abs_nonneg t).trans ht
  refine ⟨s / Wc, by simp [fdiv, hne], ?_⟩
  rw [Fl.val_div]
  have hdp : 0 ≤ (1 + d) / p - 1 := by
    rw [sub_nonneg, le_div_iff₀ hp]; linarith
  have key := hu.round (z := s.val / Wc.val) (t := t / W) (d := (1 + d) / p - 1) (a := a / W)
    (by rw [abs_div, abs_of_pos hW]; exact div_le_div_of_nonneg_right ht hW.le) (by
      have e : s.val / Wc.val - t / W = (s.val - t) / Wc.val + t * ((W - Wc.val) / (Wc.val * W)) := by
        field_simp; ring
      rw [e]
      have b1 : |(s.val - t) / Wc.val| ≤ d * a / (p * W) := by
        rw [abs_div, abs_of_pos hWc]
        exact div_le_div₀ (mul_nonneg hd ha) h (mul_pos hp hW) h1
      have b2 := inv_weights hp hp1 hW h1 h2
      have b3 : |t * ((W - Wc.val) / (Wc.val * W))| ≤ a * ((1 / p - 1) / W) := by
        rw [abs_mul]
        exact mul_le_mul ht b2 (abs_nonneg _) ha
      refine (abs_add_le _ _).trans ((add_le_add b1 b3).trans (le_of_eq ?_))
      field_simp
      ring)
  refine key.trans (le_of_eq ?_)
  ring

/-! ## Means and moments -/

theorem pow_rel (h : 0 ≤ u) (n : ℕ) : 0 ≤ (1 + u) ^ n - 1 := by
  have : 1 ≤ (1 + u) ^ n := one_le_pow₀ (by linarith)
  linarith

/-- **C78** `weighted_mean` (weighted sum divided by the sum of the weights). -/
theorem C78_lazy_mean (hu : R.RelErr u) (hu1 : u < 1) (ps : List (Fl R × Fl R)) (hw : ∀ p ∈ ps, 0 ≤ p.2.val)
    (hW : 0 < (ps.map fun p => p.2.val).sum) :
    ∃ m : Fl R, (lazyWMean (0 : Fl R)).read ((lazyWMean 0).run ps) = .val m ∧
      |m.val - (ps.map fun p => p.1.val * p.2.val).sum / (ps.map fun p => p.2.val).sum|
        ≤ ((1 + u) ^ (ps.length + 2) / (1 - u) ^ ps.length - 1) *
          ((ps.map fun p => |p.1.val * p.2.val|).sum / (ps.map fun p => p.2.val).sum) := by
  have hs : ∀ ps : List (Fl R × Fl R),
      (lazyWMean (0 : Fl R)).run ps = ⟨sumRun Prod.snd 0 ps, weightedSumRun 0 ps⟩ := by
    intro ps
    induction ps using List.reverseRecOn with
    | nil => rfl
    | append_singleton l a ih =>
      unfold MeanProvider.run at ih ⊢
      rw [List.foldl_append, ih]
      simp [lazyWMean, sumRun, weightedSumRun]
  have h0 := hu.nonneg
  obtain ⟨b1, b2⟩ := sumW_bounds hu hu1 Prod.snd ps hw
  have h1 := C58_weighted_sum hu (0 : Fl R) ps
  simp only [Fl.val_zero, abs_zero, zero_add] at h1
  obtain ⟨m, e, hm⟩ := div_weights_err hu (p := (1 - u) ^ ps.length) (pow_pos (by linarith) _)
    (pow_le_one₀ (by linarith) (by linarith)) hW b1 b2 (pow_rel h0 (ps.length + 1))
    (abs_sum_le (fun p : Fl R × Fl R => p.1.val * p.2.val) ps) h1
  refine ⟨m, by rw [hs]; exact e, hm.trans (le_of_eq ?_)⟩
  rw [add_sub_cancel, pow_succ _ (ps.length + 1)]
  ring

/-- **C78** `weighted_moment<N>`. -/
theorem C78_moment (hu : R.RelErr u) (hu1 : u < 1) {N : ℕ} (hN : 0 < N) (ps : List (Fl R × Fl R))
    (hw : ∀ p ∈ ps, 0 ≤ p.2.val) (hW : 0 < (ps.map fun p => p.2.val).sum) :
    ∃ m : Fl R, weightedMomentRun N (0 : Fl R) ps = .val m ∧
      |m.val - (ps.map fun p => p.2.val * p.1.val ^ N).sum / (ps.map fun p => p.2.val).sum|
        ≤ ((1 + u) ^ (ps.length + N + 1) / (1 - u) ^ ps.length - 1) *
          ((ps.map fun p => |p.2.val * p.1.val ^ N|).sum / (ps.map fun p => p.2.val).sum) := by
  have h0 := hu.nonneg
  have z : (0 * 1 : Fl R) = 0 := by
    apply Fl.ext
    rw [Fl.val_mul, Fl.val_one, mul_one, Fl.rd_val]
  have hs : ∀ ps : List (Fl R × Fl R), ps.foldl (WMomentSt.push N) ⟨0, 0 * 1⟩
      = ⟨sumRun Prod.snd 0 ps, ps.foldl (fun s p => s + p.2 * mpow p.1 N) 0⟩ := by
    intro ps
    induction ps using List.reverseRecOn with
    | nil => rw [List.foldl_nil, z]; rfl
    | append_singleton l a ih =>
      rw [List.foldl_append, ih, List.foldl_append]
      simp [WMomentSt.push, sumRun]
  obtain ⟨b1, b2⟩ := sumW_bounds hu hu1 Prod.snd ps hw
  have h1 := foldl_add_err hu (fun p : Fl R × Fl R => p.2 * mpow p.1 N) (fun p => p.2.val * p.1.val ^ N)
    (d := (1 + u) ^ N - 1) (pow_rel h0 N) (fun p => by
      have := hu.round (z := p.2.val * (mpow p.1 N).val) (t := p.2.val * p.1.val ^ N)
        (d := (1 + u) ^ (N - 1) - 1) (a := |p.2.val * p.1.val ^ N|) le_rfl (by
          rw [← mul_sub, abs_mul, abs_mul]
          have := mul_le_mul_of_nonneg_left (mpow_err hu p.1 N hN) (abs_nonneg p.2.val)
          refine this.trans (le_of_eq ?_)
          ring)
      refine this.trans (le_of_eq ?_)
      obtain ⟨k, rfl⟩ : ∃ k, N = k + 1 := ⟨N - 1, by omega⟩
      rw [Nat.add_sub_cancel, pow_succ]
      ring) 0 ps
  simp only [Fl.val_zero, abs_zero, zero_add, add_sub_cancel] at h1
  rw [← pow_add] at h1
  obtain ⟨m, e, hm⟩ := div_weights_err hu (p := (1 - u) ^ ps.length) (pow_pos (by linarith) _)
    (pow_le_one₀ (by linarith) (by linarith)) hW b1 b2 (pow_rel h0 (ps.length + N))
    (abs_sum_le (fun p : Fl R × Fl R => p.2.val * p.1.val ^ N) ps) h1
  refine ⟨m, ?_, hm.trans (le_of_eq ?_)⟩
  · rw [weightedMomentRun, hs]; exact e
  · rw [add_sub_cancel, pow_succ _ (ps.length + N)]
    ring

/-- **C78** `weighted_sum_kahan`: the error does not depend on the number of samples to first order in `u`. -/
theorem C78_kahan (hu : R.RelErr u) (hu32 : u ≤ 1 / 32) (ps : List (Fl R × Fl R))
    (hn : (ps.length : K) * u ^ 2 ≤ 1 / 32) :
    |(weightedKahanRun 0 ps).sum.val - (ps.map fun p => p.1.val * p.2.val).sum|
      ≤ ((1 + 5 * u + 12 * ps.length * u ^ 2) * (1 + u) - 1) * (ps.map fun p => |p.1.val * p.2.val|).sum := by
  have h0 := hu.nonneg
  have z : (0 * 1 : Fl R) = 0 := by
    apply Fl.ext
    rw [Fl.val_mul, Fl.val_one, mul_one, Fl.rd_val]
  have e : weightedKahanRun 0 ps = kahanRun (fun p : Fl R × Fl R => p.1 * p.2) 0 ps := by
    unfold weightedKahanRun kahanRun
    rw [z]
    rfl
  have h1 := C59_kahan hu hu32 (fun p : Fl R × Fl R => p.1 * p.2) ps hn
  rw [e]
  have h2 : ∀ l : List (Fl R × Fl R), |(l.map fun p => (p.1 * p.2).val).sum - (l.map fun p => p.1.val * p.2.val).sum|
      ≤ u * (l.map fun p => |p.1.val * p.2.val|).sum := by
    intro l
    induction l with
    | nil => simp
    | cons p l ih =>
      simp only [List.map_cons, List.sum_cons]
      have := hu (p.1.val * p.2.val)
      rw [mul_add, add_sub_add_comm]
      exact (abs_add_le _ _).trans (add_le_add this ih)
  have h3 : ∀ l : List (Fl R × Fl R), (l.map fun p => |(p.1 * p.2).val|).sum
      ≤ (1 + u) * (l.map fun p => |p.1.val * p.2.val|).sum := by
    intro l
    induction l with
    | nil => simp
    | cons p l ih =>
      simp only [List.map_cons, List.sum_cons]
      have := hu (p.1.val * p.2.val)
      have h := abs_sub_abs_le_abs_sub (p.1 * p.2).val (p.1.val * p.2.val)
      rw [Fl.val_mul] at h ⊢
      rw [mul_add]
      exact add_le_add (by linarith) ih
  have hc : 0 ≤ 5 * u + 12 * ps.length * u ^ 2 := by positivity
  have h4 := mul_le_mul_of_nonneg_left (h3 ps) hc
  have h5 := h2 ps
  rw [← sub_add_sub_cancel _ ((ps.map fun p : Fl R × Fl R => (p.1 * p.2).val).sum)]
  refine (abs_add_le _ _).trans ((add_le_add (h1.trans h4) h5).trans (le_of_eq ?_))
  ring

/-! ## The immediate mean -/

/-- One update of `immediate_weighted_mean`, compared with the exact update with the computed sum of weights. -/
theorem immWMean_step_err (hu : R.RelErr u) {B M : K} (hMB : M ≤ B) {m x w W : Fl R} (hm : |m.val| ≤ B)
    (hx : |x.val| ≤ M) (hw : 0 ≤ w.val) (hwW : w.val ≤ W.val) (hW : 0 < W.val) :
    ∃ m' : Fl R, immWMeanStep W (.val m) (x, w) = .val m' ∧
      |m'.val - ((1 - w.val / W.val) * m.val + w.val / W.val * x.val)| ≤ ((1 + u) ^ 4 - 1) * B ∧
      |m'.val| ≤ (1 + u) ^ 4 * B := by
  have h0 := hu.nonneg
  have hne : W ≠ 0 := fun e => by rw [e, Fl.val_zero] at hW; exact lt_irrefl _ hW
  have hd0 : 0 ≤ W.val - w.val := sub_nonneg.2 hwW
  have r1 := hu.round (z := m.val * (W - w).val) (t := m.val * (W.val - w.val)) (a := |m.val * (W.val - w.val)|) (d := u)
    le_rfl (by
      rw [← mul_sub, abs_mul, abs_mul, Fl.val_sub]
      have := mul_le_mul_of_nonneg_left (hu (W.val - w.val)) (abs_nonneg m.val)
      linarith)
  have r2 : |R.rd (x.val * w.val) - x.val * w.val| ≤ ((1 + u) * (1 + u) - 1) * |x.val * w.val| := by
    refine (hu _).trans (mul_le_mul_of_nonneg_right ?_ (abs_nonneg _))
    nlinarith
  have r3 := hu.round (z := R.rd (m.val * (W - w).val) + R.rd (x.val * w.val))
    (t := m.val * (W.val - w.val) + x.val * w.val) (a := |m.val * (W.val - w.val)| + |x.val * w.val|)
    (d := (1 + u) * (1 + u) - 1) (abs_add_le _ _) (by
      rw [add_sub_add_comm, mul_add]
      exact (abs_add_le _ _).trans (add_le_add r1 r2))
  obtain ⟨D, hD⟩ : ∃ D, D = (1 + u) * (1 + ((1 + u) * (1 + u) - 1)) - 1 := ⟨_, rfl⟩
  rw [← hD] at r3
  have hval : (m * (W - w) + x * w).val = R.rd (R.rd (m.val * (W - w).val) + R.rd (x.val * w.val)) := rfl
  rw [← hval] at r3
  have hb : (|m.val * (W.val - w.val)| + |x.val * w.val|) / W.val ≤ B := by
    rw [div_le_iff₀ hW, abs_mul, abs_mul, abs_of_nonneg hd0, abs_of_nonneg hw]
    have c1 := mul_le_mul_of_nonneg_right hm hd0
    have c2 := mul_le_mul_of_nonneg_right (hx.trans hMB) hw
    linarith
  have et : (m.val * (W.val - w.val) + x.val * w.val) / W.val
      = (1 - w.val / W.val) * m.val + w.val / W.val * x.val := by
    field_simp
  have r4 := hu.round (z := (m * (W - w) + x * w).val / W.val)
    (t := (m.val * (W.val - w.val) + x.val * w.val) / W.val)
    (a := (|m.val * (W.val - w.val)| + |x.val * w.val|) / W.val) (d := D)
    (by
      rw [abs_div, abs_of_pos hW]
      exact div_le_div_of_nonneg_right (abs_add_le _ _) hW.le) (by
      rw [← sub_div, abs_div, abs_of_pos hW, ← mul_div_assoc]
      exact div_le_div_of_nonneg_right r3 hW.le)
  have e4 : (1 + u) * (1 + D) - 1 = (1 + u) ^ 4 - 1 := by rw [hD]; ring
  rw [e4, et] at r4
  have r5 : |((m * (W - w) + x * w) / W).val - ((1 - w.val / W.val) * m.val + w.val / W.val * x.val)|
      ≤ ((1 + u) ^ 4 - 1) * B := r4.trans (mul_le_mul_of_nonneg_left hb (pow_rel h0 4))
  refine ⟨(m * (W - w) + x * w) / W, by simp [immWMeanStep, fdiv, hne], r5, ?_⟩
  have hth : w.val / W.val ≤ 1 := (div_le_one hW).2 hwW
  have hth0 : 0 ≤ w.val / W.val := div_nonneg hw hW.le
  have hc : |(1 - w.val / W.val) * m.val + w.val / W.val * x.val| ≤ B := by
    refine (abs_add_le _ _).trans ?_
    rw [abs_mul, abs_mul, abs_of_nonneg hth0, abs_of_nonneg (sub_nonneg.2 hth)]
    have c1 := mul_le_mul_of_nonneg_left hm (sub_nonneg.2 hth)
    have c2 := mul_le_mul_of_nonneg_left (hx.trans hMB) hth0
    linarith
  have := abs_sub_abs_le_abs_sub ((m * (W - w) + x * w) / W).val
    ((1 - w.val / W.val) * m.val + w.val / W.val * x.val)
  linarith

theorem sumRun_ge_last {A : Type} (w : A → Fl R) (l : List A) (a : A) (hw : ∀ b ∈ l, 0 ≤ (w b).val) :
    (w a).val ≤ (sumRun w 0 (l ++ [a])).val := by
  have h0 : ∀ l : List A, (∀ b ∈ l, 0 ≤ (w b).val) → (0 : Fl R) ≤ sumRun w 0 l := by
    intro l hl
    induction l using List.reverseRecOn with
    | nil => exact le_rfl
    | append_singleton l b ih =>
      have e : sumRun w 0 (l ++ [b]) = sumRun w 0 l + w b := by simp [sumRun, sumStep, List.foldl_append]
      rw [e]
      exact Fl.add_nonneg (ih fun c hc => hl c (by simp [hc])) (hl b (by simp))
  have e : sumRun w 0 (l ++ [a]) = sumRun w 0 l + w a := by simp [sumRun, sumStep, List.foldl_append]
  rw [e]
  exact Fl.le_iff.1 (Fl.le_add (h0 l hw))

theorem immWMean_err (hu : R.RelErr u) (hu1 : u < 1) {M : K} (hM0 : 0 ≤ M) (ps : List (Fl R × Fl R))
    (hM : ∀ p ∈ ps, |p.1.val| ≤ M) (hw : ∀ p ∈ ps, 0 ≤ p.2.val) (h1 : ∀ p ∈ ps.head?, 0 < p.2.val) :
    ((immWMean (0 : Fl R)).run ps).sumW = sumRun Prod.snd 0 ps ∧
    ∃ m : Fl R, ((immWMean (0 : Fl R)).run ps).mean = .val m ∧ |m.val| ≤ (1 + u) ^ (4 * ps.length) * M ∧
      (ps ≠ [] → |m.val - (ps.map fun p => p.1.val * p.2.val).sum / (ps.map fun p => p.2.val).sum|
        ≤ ((2 / (1 - u) ^ ps.length - 1) * (1 + u) ^ (4 * ps.length) - 1) * M) := by
  have h0 := hu.nonneg
  have z : (0 * 1 : Fl R) = 0 := by
    apply Fl.ext
    rw [Fl.val_mul, Fl.val_one, mul_one, Fl.rd_val]
  have one_ne : (1 : Fl R) ≠ 0 := by
    intro e
    rw [Fl.eq_zero_iff] at e
    exact one_ne_zero e
  induction ps using List.reverseRecOn with
  | nil =>
    refine ⟨rfl, (0 * 1) / 1, by simp [immWMean, MeanProvider.run, fdiv, one_ne], ?_, fun h => absurd rfl h⟩
    rw [z, Fl.val_div, Fl.val_zero, zero_div, R.zero, abs_zero]
    simpa using hM0
  | append_singleton l a ih =>
    have hwl : ∀ p ∈ l, 0 ≤ p.2.val := fun p hp => hw p (by simp [hp])
    have hwa : 0 ≤ a.2.val := hw a (by simp)
    have hMa : |a.1.val| ≤ M := hM a (by simp)
    have h1l : ∀ p ∈ l.head?, 0 < p.2.val := by
      intro p hp
      apply h1
      cases l with
      | nil => simp at hp
      | cons b l => simpa using hp
    obtain ⟨iW, m, im, ib, ie⟩ := ih (fun p hp => hM p (by simp [hp])) hwl h1l
    have hWpos : ∀ l : List (Fl R × Fl R), l ≠ [] → (∀ p ∈ l, 0 ≤ p.2.val) → (∀ p ∈ l.head?, 0 < p.2.val) →
        0 < (l.map fun p => p.2.val).sum := by
      intro l hl hw h1
      cases l with
      | nil => exact absurd rfl hl
      | cons b l =>
        rw [List.map_cons, List.sum_cons]
        exact add_pos_of_pos_of_nonneg (h1 b (by simp))
          (weights_nonneg Prod.snd fun p hp => hw p (by simp [hp]))
    have hW' := hWpos (l ++ [a]) (by simp) hw h1
    obtain ⟨b1, b2⟩ := sumW_bounds hu hu1 Prod.snd (l ++ [a]) hw
    obtain ⟨p, hp⟩ : ∃ p, p = (1 - u) ^ (l ++ [a]).length := ⟨_, rfl⟩
    have hp0 : 0 < p := hp ▸ pow_pos (by linarith) _
    have hp1 : p ≤ 1 := hp ▸ pow_le_one₀ (by linarith) (by linarith)
    rw [← hp] at b1 b2
    obtain ⟨V, hV⟩ : ∃ V, V = sumRun Prod.snd 0 (l ++ [a]) := ⟨_, rfl⟩
    have hVa : a.2.val ≤ V.val := hV ▸ sumRun_ge_last Prod.snd l a hwl
    rw [← hV] at b1 b2
    have hV0 : 0 < V.val := lt_of_lt_of_le (mul_pos hp0 hW') b1
    obtain ⟨E, hE⟩ : ∃ E, E = (1 + u) ^ (4 * l.length) := ⟨_, rfl⟩
    have hE1 : 1 ≤ E := hE ▸ one_le_pow₀ (by linarith)
    rw [← hE] at ib ie
    obtain ⟨m', em, em1, em2⟩ := immWMean_step_err hu (B := E * M) (M := M) (by nlinarith) ib hMa hwa hVa hV0
    have erun : (immWMean (0 : Fl R)).run (l ++ [a]) = (immWMean 0).push ((immWMean 0).run l) a := by
      simp [MeanProvider.run, List.foldl_append]
    have eV : sumStep ((immWMean (0 : Fl R)).run l).sumW a.2 = V := by
      rw [iW, hV]; simp [sumRun, List.foldl_append]
    have e4 : (1 + u) ^ (4 * (l ++ [a]).length) = (1 + u) ^ 4 * E := by
      rw [hE, List.length_append, List.length_singleton, mul_add, pow_add]; ring
    refine ⟨?_, m', ?_, ?_, fun _ => ?_⟩
    · rw [erun, ← hV]; exact eV
    · rw [erun]
      show immWMeanStep (sumStep ((immWMean (0 : Fl R)).run l).sumW a.2) _ a = _
      rw [eV, im]
      exact em
    · rw [e4, mul_assoc]; exact em2
    · rw [e4, ← hp]
      obtain ⟨W, hWd⟩ : ∃ W, W = (l.map fun p => p.2.val).sum := ⟨_, rfl⟩
      obtain ⟨S, hS⟩ : ∃ S, S = (l.map fun p => p.1.val * p.2.val).sum := ⟨_, rfl⟩
      have eW' : ((l ++ [a]).map fun p => p.2.val).sum = W + a.2.val := by simp [hWd]
      have eS' : ((l ++ [a]).map fun p => p.1.val * p.2.val).sum = S + a.1.val * a.2.val := by simp [hS]
      rw [eW'] at hW' b1 b2
      rw [eS', eW']
      have hWn : 0 ≤ W := hWd ▸ weights_nonneg Prod.snd hwl
      obtain ⟨t, ht⟩ : ∃ t, t = a.2.val / (W + a.2.val) := ⟨_, rfl⟩
      have ht0 : 0 ≤ t := ht ▸ div_nonneg hwa hW'.le
      have ht1 : t ≤ 1 := by rw [ht, div_le_one hW']; linarith
      obtain ⟨q, hq⟩ : ∃ q, q = a.2.val / V.val := ⟨_, rfl⟩
      rw [← hq] at em1
      have htq : |t - q| ≤ t * (1 / p - 1) := by
        have e : t - q = -(a.2.val * ((W + a.2.val - V.val) / (V.val * (W + a.2.val)))) := by
          rw [ht, hq]; field_simp; ring
        rw [e, abs_neg, abs_mul, abs_of_nonneg hwa]
        have := mul_le_mul_of_nonneg_left (inv_weights hp0 hp1 hW' b1 b2) hwa
        refine this.trans (le_of_eq ?_)
        rw [ht]; ring
      have hinv : 1 ≤ 1 / p := by rw [le_div_iff₀ hp0]; linarith
      -- the exact mean is a convex combination of the one before and the sample
      have hmean : ∃ mu, (S + a.1.val * a.2.val) / (W + a.2.val) = (1 - t) * mu + t * a.1.val ∧
          (1 - t) * |m.val - mu| ≤ (1 - t) * (((2 / p - 1) * E - 1) * M) := by
        by_cases hl : l = []
        · subst hl
          have hW0 : W = 0 := by simp [hWd]
          have hS0 : S = 0 := by simp [hS]
          have h1t : t = 1 := by
            rw [ht, hW0, zero_add]
            rw [hW0, zero_add] at hW'
            exact div_self hW'.ne'
          refine ⟨0, ?_, ?_⟩
          · rw [h1t, hW0, hS0]
            rw [hW0, zero_add] at hW'
            field_simp
            ring
          · rw [h1t]; simp
        · have hWp : 0 < W := hWd ▸ hWpos l hl hwl h1l
          refine ⟨S / W, ?_, ?_⟩
          · rw [ht]; field_simp; ring
          · refine mul_le_mul_of_nonneg_left ?_ (sub_nonneg.2 ht1)
            have i1 := ie hl
            rw [← hWd, ← hS] at i1
            refine i1.trans (mul_le_mul_of_nonneg_right ?_ hM0)
            have hpl : p ≤ (1 - u) ^ l.length := by
              rw [hp, List.length_append, List.length_singleton, pow_succ]
              have : 0 ≤ (1 - u) ^ l.length := pow_nonneg (by linarith) _
              nlinarith
            have : 2 / (1 - u) ^ l.length ≤ 2 / p := div_le_div_of_nonneg_left (by norm_num) hp0 hpl
            have := mul_le_mul_of_nonneg_right this (by linarith : (0 : K) ≤ E)
            linarith
      obtain ⟨mu, emu, hmu⟩ := hmean
      rw [emu]
      have edec : m'.val - ((1 - t) * mu + t * a.1.val)
          = (m'.val - ((1 - q) * m.val + q * a.1.val)) + ((1 - t) * (m.val - mu) + (t - q) * (m.val - a.1.val)) := by
        ring
      rw [edec]
      refine (abs_add_le _ _).trans ((add_le_add em1 (abs_add_le _ _)).trans ?_)
      rw [abs_mul, abs_mul, abs_of_nonneg (sub_nonneg.2 ht1)]
      have hdiff : |m.val - a.1.val| ≤ 2 * (E * M) := by
        have := abs_sub m.val a.1.val
        nlinarith
      have hprod : |t - q| * |m.val - a.1.val| ≤ t * (1 / p - 1) * (2 * (E * M)) :=
        mul_le_mul htq hdiff (abs_nonneg _) (mul_nonneg ht0 (by linarith))
      have hu4 : 1 ≤ (1 + u) ^ 4 := one_le_pow₀ (by linarith)
      have hEM : 0 ≤ E * M := mul_nonneg (by linarith) hM0
      have e2 : (2 / p - 1) = 2 * (1 / p - 1) + 1 := by ring
      rw [e2] at hmu ⊢
      obtain ⟨r, hr⟩ : ∃ r, r = 1 / p - 1 := ⟨_, rfl⟩
      rw [← hr] at hprod hmu ⊢
      have hr0 : 0 ≤ r := by rw [hr]; linarith
      obtain ⟨F, hF⟩ : ∃ F, F = (1 + u) ^ 4 := ⟨_, rfl⟩
      rw [← hF] at hu4 ⊢
      obtain ⟨X, hX⟩ : ∃ X, X = ((2 * r + 1) * E - 1) * M := ⟨_, rfl⟩
      rw [← hX] at hmu
      have c1 : t * r * (2 * (E * M)) + t * ((E - 1) * M) = t * X := by rw [hX]; ring
      have c0 : 0 ≤ t * ((E - 1) * M) := mul_nonneg ht0 (mul_nonneg (by linarith) hM0)
      have c2 : 0 ≤ r * (F - 1) * (E * M) := mul_nonneg (mul_nonneg hr0 (by linarith)) hEM
      have c3 : ((2 * r + 1) * (F * E) - 1) * M = (F - 1) * (E * M) + X + 2 * (r * (F - 1) * (E * M)) := by
        rw [hX]; ring
      have c4 : (1 - t) * X + t * X = X := by ring
      rw [c3]
      linarith

/-- **C78** `immediate_weighted_mean`: the error is bounded relative to the largest sample, `M`, by
`(2 / (1 - u)ⁿ - 1) (1 + u)⁴ⁿ - 1`, which is about `6 n u`.  The weight of the first sample has to be positive, that of
the others may be zero. -/
theorem C78_immediate_mean (hu : R.RelErr u) (hu1 : u < 1) {M : K} (ps : List (Fl R × Fl R)) (h : ps ≠ [])
    (hM : ∀ p ∈ ps, |p.1.val| ≤ M) (hw : ∀ p ∈ ps, 0 ≤ p.2.val) (h1 : ∀ p ∈ ps.head?, 0 < p.2.val) :
    ∃ m : Fl R, (immWMean (0 : Fl R)).read ((immWMean 0).run ps) = .val m ∧
      |m.val - (ps.map fun p => p.1.val * p.2.val).sum / (ps.map fun p => p.2.val).sum|
        ≤ ((2 / (1 - u) ^ ps.length - 1) * (1 + u) ^ (4 * ps.length) - 1) * M := by
  have hM0 : 0 ≤ M := by
    obtain ⟨p, hp⟩ := List.exists_mem_of_ne_nil _ h
    exact (abs_nonneg _).trans (hM p hp)
  obtain ⟨-, m, e, -, hm⟩ := immWMean_err hu hu1 hM0 ps hM hw h1
  exact ⟨m, e, hm h⟩

/-- **C78 fails** for `immediate_weighted_mean` in the form that holds for `weighted_mean`: relative to the weighted mean
of the absolute values the error may be total.  One sample of weight 1 and then zeros of weight `2⁵⁴`: the mean becomes
0, while `weighted_mean` is right to the last digit. -/
theorem C78_immediate_relative_fails :
    let ps : List (Fl double × Fl double) := [(1, 1), (0, Fl.ofK double (2 ^ 54))]
    (immWMean (0 : Fl double)).read ((immWMean 0).run ps) = .val 0 ∧
    (lazyWMean (0 : Fl double)).read ((lazyWMean 0).run ps) = .val (Fl.ofK double (1 / (2 ^ 54 + 1))) ∧
    (ps.map fun p => p.1.val * p.2.val).sum / (ps.map fun p => p.2.val).sum
      = (ps.map fun p => |p.1.val * p.2.val|).sum / (ps.map fun p => p.2.val).sum ∧
    (ps.map fun p => p.1.val * p.2.val).sum / (ps.map fun p => p.2.val).sum = 1 / (2 ^ 54 + 1) := by
  decide +kernel

/-! ## The hypotheses can be met -/

/-- Three samples; none of the sums is exact. -/
def roundPairs : List (Fl double × Fl double) :=
  [(Fl.ofK double (1 / 10), 1), (Fl.ofK double (-1 / 3), Fl.ofK double (1 / 7)), (3, 0)]

example := C78_lazy_mean double_relErr (by norm_num) roundPairs (by decide +kernel) (by decide +kernel)

example := C78_moment double_relErr (by norm_num) (N := 3) (by norm_num) roundPairs (by decide +kernel) (by decide +kernel)

example := C78_kahan double_relErr (by norm_num) roundPairs (by norm_num [roundPairs])

example := C78_immediate_mean double_relErr (by norm_num) (M := 3) roundPairs (by decide) (by decide +kernel)
  (by decide +kernel) (by decide +kernel)

end Acc
