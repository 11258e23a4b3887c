import Verif.Props.RoundCov

/-!
# C94: the recursive weighted variance and covariance in floating point arithmetic

The recursion divides by `sum_of_weights - weight`.  The bounds are for weights whose partial sums are representable
(integers up to 2⁵³ for `double`), so that this difference is exact; `ρ` bounds the growth of the sum of weights from one
sample to the next.  Where the difference is not exact the result may be infinite (`C94_dominant_weight_fails`).
-/

set_option linter.unusedSectionVars false

namespace Acc

variable {K : Type} [Field K] [LinearOrder K] [IsStrictOrderedRing K] {R : Rounding K} {u : K}

/-! ## One update -/

/-- The summand for the new sample, `p * q * w / (W - w)`, where `p` and `q` are the rounded deviations. -/
theorem wdev_err (hu : R.RelErr u) {p q w k : Fl R} {y z : K} (hp : |p.val - y| ≤ u * |y|) (hq : |q.val - z| ≤ u * |z|)
    (hw : 0 ≤ w.val) (hk : 0 < k.val) :
    |(p * q * w / k).val - y * z * w.val / k.val| ≤ ((1 + u) ^ 5 - 1) * (|y| * |z| * w.val / k.val) := by
  have h0 := hu.nonneg
  have b1 := prod_err (s := p.val) (t := q.val) (y := y) (z := z) h0 le_rfl le_rfl hp hq
  have b2 := hu.round (z := p.val * q.val) (t := y * z) (a := |y| * |z|) (d := (1 + u) * (1 + u) - 1)
    (by rw [abs_mul]) b1
  have b3 := hu.round (z := R.rd (p.val * q.val) * w.val) (t := y * z * w.val) (a := |y| * |z| * w.val)
    (d := (1 + u) ^ 3 - 1) (by rw [abs_mul, abs_mul, abs_of_nonneg hw]) (by
      rw [← sub_mul, abs_mul, abs_of_nonneg hw, ← mul_assoc]
      refine mul_le_mul_of_nonneg_right (b2.trans (le_of_eq ?_)) hw
      ring)
  have b4 := hu.round (z := R.rd (R.rd (p.val * q.val) * w.val) / k.val) (t := y * z * w.val / k.val)
    (a := |y| * |z| * w.val / k.val) (d := (1 + u) ^ 4 - 1)
    (by rw [abs_div, abs_mul, abs_mul, abs_of_nonneg hw, abs_of_pos hk]) (by
      rw [← sub_div, abs_div, abs_of_pos hk, ← mul_div_assoc]
      refine div_le_div_of_nonneg_right (b3.trans (le_of_eq ?_)) hk.le
      ring)
  have e : (p * q * w / k).val = R.rd (R.rd (R.rd (p.val * q.val) * w.val) / k.val) := by
    rw [Fl.val_div, Fl.val_mul, Fl.val_mul]
  rw [e]
  refine b4.trans (le_of_eq ?_)
  ring

/-- The old value, scaled, plus the new summand. -/
theorem wstep_sum_err (hu : R.RelErr u) {c k W b : Fl R} {t a : K} (hk : 0 ≤ k.val) (hW : 0 < W.val) (ht : |t| ≤ a)
    (hb : |b.val - t| ≤ ((1 + u) ^ 5 - 1) * a) :
    |(c * k / W + b).val - (c.val * k.val / W.val + t)| ≤ ((1 + u) ^ 6 - 1) * (|c.val| * k.val / W.val + a) := by
  have h0 := hu.nonneg
  have ea : |c.val * k.val / W.val| = |c.val| * k.val / W.val := by
    rw [abs_div, abs_mul, abs_of_nonneg hk, abs_of_pos hW]
  have a1 := hu (c.val * k.val)
  rw [abs_mul c.val, abs_of_nonneg hk] at a1
  have a2 := hu.round (z := R.rd (c.val * k.val) / W.val) (t := c.val * k.val / W.val)
    (a := |c.val| * k.val / W.val) (d := u) (le_of_eq ea) (by
      rw [← sub_div, abs_div, abs_of_pos hW, ← mul_div_assoc]
      exact div_le_div_of_nonneg_right a1 hW.le)
  have ha : 0 ≤ |c.val| * k.val / W.val := div_nonneg (mul_nonneg (abs_nonneg _) hk) hW.le
  have c1 := hu.round (z := R.rd (R.rd (c.val * k.val) / W.val) + b.val) (t := c.val * k.val / W.val + t)
    (a := |c.val| * k.val / W.val + a) (d := (1 + u) ^ 5 - 1)
    ((abs_add_le _ _).trans (by rw [ea]; linarith)) (by
      rw [add_sub_add_comm, mul_add]
      refine (abs_add_le _ _).trans (add_le_add (a2.trans ?_) hb)
      refine mul_le_mul_of_nonneg_right ?_ ha
      have : (1 + u) * (1 + u) ≤ (1 + u) ^ 5 := by
        rw [← pow_two]; exact pow_le_pow_right₀ (by linarith) (by norm_num)
      linarith)
  have e : (c * k / W + b).val = R.rd (R.rd (R.rd (c.val * k.val) / W.val) + b.val) := by
    rw [Fl.val_add, Fl.val_div, Fl.val_mul]
  rw [e]
  refine c1.trans (le_of_eq ?_)
  ring

theorem Fl.ne_zero_of_pos {a : Fl R} (h : 0 < a.val) : a ≠ 0 := fun e => by
  rw [e, Fl.val_zero] at h; exact lt_irrefl _ h

/-- One update of `weighted_variance` with an exact difference of weights. -/
theorem wvariance_step_err (hu : R.RelErr u) {n : ℕ} (hn : 0 < n) {W : Fl R} {m v x w : Fl R} {k : K}
    (hk : 0 < k) (hkW : W.val - w.val = k) (hkr : R.rd k = k) (hw : 0 ≤ w.val) (hv : 0 ≤ v.val) :
    ∃ v' : Fl R, weightedVarianceStep (n + 1) W (.val m) (.val v) (x, w) = .val v' ∧ 0 ≤ v'.val ∧
      |v'.val - (v.val * k / W.val + (x.val - m.val) * (x.val - m.val) * w.val / k)|
        ≤ ((1 + u) ^ 6 - 1) * (v.val * k / W.val + (x.val - m.val) * (x.val - m.val) * w.val / k) := by
  have hd : (W - w).val = k := by rw [Fl.val_sub, hkW, hkr]
  have hW : 0 < W.val := by linarith
  have hk' : 0 < (W - w).val := by rw [hd]; exact hk
  have hb := wdev_err hu (p := x - m) (q := x - m) (y := x.val - m.val) (z := x.val - m.val) (w := w) (k := W - w)
    (by rw [Fl.val_sub]; exact hu _) (by rw [Fl.val_sub]; exact hu _) hw hk'
  rw [abs_mul_abs_self, hd] at hb
  have ht : |(x.val - m.val) * (x.val - m.val) * w.val / k| ≤ (x.val - m.val) * (x.val - m.val) * w.val / k := by
    rw [abs_of_nonneg (div_nonneg (mul_nonneg (mul_self_nonneg _) hw) hk.le)]
  have hs := wstep_sum_err hu (c := v) (k := W - w) (W := W) hk'.le hW ht hb
  rw [hd, abs_of_nonneg hv] at hs
  refine ⟨v * (W - w) / W + (x - m) * (x - m) * w / (W - w), ?_, ?_, hs⟩
  · simp only [weightedVarianceStep, Res.val_bind, fdiv, if_neg (Fl.ne_zero_of_pos hW), if_neg (Fl.ne_zero_of_pos hk')]
    rw [if_pos (by omega)]
    rfl
  · exact Fl.le_iff.1 (Fl.add_nonneg (Fl.div_nonneg (Fl.mul_nonneg (Fl.le_iff.2 hv) (Fl.le_iff.2 hk'.le)) (Fl.le_iff.2 hW.le))
      (Fl.div_nonneg (Fl.mul_nonneg (Fl.mul_self_nonneg _) (Fl.le_iff.2 hw)) (Fl.le_iff.2 hk'.le)))

/-- One update of `weighted_covariance` with an exact difference of weights. -/
theorem wcovariance_step_err (hu : R.RelErr u) {n : ℕ} (hn : 0 < n) {W : Fl R} {mx my c x y w : Fl R} {k : K}
    (hk : 0 < k) (hkW : W.val - w.val = k) (hkr : R.rd k = k) (hw : 0 ≤ w.val) :
    ∃ c' : Fl R, weightedCovarianceStep (n + 1) W (.val mx) (.val my) (.val c) x y w = .val c' ∧
      |c'.val - (c.val * k / W.val + (my.val - y.val) * (mx.val - x.val) * w.val / k)|
        ≤ ((1 + u) ^ 6 - 1) * (|c.val| * k / W.val + |my.val - y.val| * |mx.val - x.val| * w.val / k) := by
  have hd : (W - w).val = k := by rw [Fl.val_sub, hkW, hkr]
  have hW : 0 < W.val := by linarith
  have hk' : 0 < (W - w).val := by rw [hd]; exact hk
  have hb := wdev_err hu (p := my - y) (q := mx - x) (y := my.val - y.val) (z := mx.val - x.val) (w := w) (k := W - w)
    (by rw [Fl.val_sub]; exact hu _) (by rw [Fl.val_sub]; exact hu _) hw hk'
  rw [hd] at hb
  have ht : |(my.val - y.val) * (mx.val - x.val) * w.val / k| ≤ |my.val - y.val| * |mx.val - x.val| * w.val / k := by
    rw [abs_div, abs_mul, abs_mul, abs_of_nonneg hw, abs_of_pos hk]
  have hs := wstep_sum_err hu (c := c) (k := W - w) (W := W) hk'.le hW ht hb
  rw [hd] at hs
  refine ⟨c * (W - w) / W + (my - y) * (mx - x) * w / (W - w), ?_, hs⟩
  simp only [weightedCovarianceStep, Res.val_bind, fdiv, if_neg (Fl.ne_zero_of_pos hW), if_neg (Fl.ne_zero_of_pos hk')]
  rw [if_pos (by omega)]
  rfl

/-! ## The exact recursion -/

/-- The sum of the weights times the weighted covariance. -/
def nwcov (ps : List ((K × K) × K)) : K :=
  (ps.map fun p => p.1.1 * p.1.2 * p.2).sum
    - (ps.map fun p => p.1.1 * p.2).sum * (ps.map fun p => p.1.2 * p.2).sum / (ps.map Prod.snd).sum

theorem nwcov_step (l : List ((K × K) × K)) (p : (K × K) × K) {k W : K} (hk : (l.map Prod.snd).sum = k) (hk0 : k ≠ 0)
    (hW : k + p.2 = W) (hW0 : W ≠ 0) :
    nwcov (l ++ [p]) = nwcov l + W * p.2 / k *
      ((((l ++ [p]).map fun p => p.1.2 * p.2).sum / W - p.1.2)
        * (((l ++ [p]).map fun p => p.1.1 * p.2).sum / W - p.1.1)) := by
  subst hW
  simp only [nwcov, List.map_append, List.sum_append, List.map_cons, List.map_nil, List.sum_cons, List.sum_nil, add_zero, hk]
  field_simp
  ring

theorem abs_wsum_le {X : Type} {A : K} (f w : X → K) (l : List X) (hA : ∀ p ∈ l, |f p| ≤ A) (hw : ∀ p ∈ l, 0 ≤ w p) :
    |(l.map fun p => f p * w p).sum| ≤ (l.map w).sum * A := by
  induction l with
  | nil => simp
  | cons p l ih =>
    have h1 := ih (fun q hq => hA q (by simp [hq])) (fun q hq => hw q (by simp [hq]))
    have h2 : |f p * w p| ≤ w p * A := by
      rw [abs_mul, abs_of_nonneg (hw p (by simp)), mul_comm]
      exact mul_le_mul_of_nonneg_left (hA p (by simp)) (hw p (by simp))
    simp only [List.map_cons, List.sum_cons, add_mul]
    exact (abs_add_le _ _).trans (add_le_add h2 h1)

theorem nwcov_le {A B : K} (l : List ((K × K) × K)) (hA : ∀ p ∈ l, |p.1.1| ≤ A) (hB : ∀ p ∈ l, |p.1.2| ≤ B)
    (hw : ∀ p ∈ l, 0 ≤ p.2) (hW : 0 < (l.map Prod.snd).sum) :
    |nwcov l| ≤ 2 * ((l.map Prod.snd).sum * (A * B)) := by
  have hA0 : 0 ≤ A := by
    cases l with
    | nil => simp at hW
    | cons p l => exact (abs_nonneg _).trans (hA p (by simp))
  have h1 := abs_wsum_le (A := A * B) (fun p : (K × K) × K => p.1.1 * p.1.2) Prod.snd l (by
    intro p hp
    rw [abs_mul]
    exact mul_le_mul (hA p hp) (hB p hp) (abs_nonneg _) hA0) hw
  have h2 := abs_wsum_le (fun p : (K × K) × K => p.1.1) Prod.snd l hA hw
  have h3 := abs_wsum_le (fun p : (K × K) × K => p.1.2) Prod.snd l hB hw
  have h4 : |(l.map fun p => p.1.1 * p.2).sum * (l.map fun p => p.1.2 * p.2).sum / (l.map Prod.snd).sum|
      ≤ (l.map Prod.snd).sum * (A * B) := by
    rw [abs_div, abs_mul, abs_of_pos hW, div_le_iff₀ hW]
    refine (mul_le_mul h2 h3 (abs_nonneg _) (mul_nonneg hW.le hA0)).trans (le_of_eq ?_)
    ring
  unfold nwcov
  refine (abs_sub _ _).trans ?_
  linarith

/-- The arithmetic of one step of the recursion. -/
theorem wcov_round_arith {g D G k W w ρ c c' b be Q0 Q V : K} (hg : 1 ≤ g) (hG : 1 ≤ G) (hD : 0 ≤ D) (hk0 : 0 < k)
    (hWk : W = k + w) (hw : 0 ≤ w) (hρ : W ≤ ρ * k) (hV : 0 ≤ V)
    (ie : |k * c - Q0| ≤ 4 * ρ * ((G * (1 + D) - 1) * (k * V))) (hQ0 : |Q0| ≤ 2 * (k * V))
    (hQ : Q = Q0 + W * w / k * be) (hb : ρ * |b - be| ≤ D * V) {B : K} (hB : ρ * B ≤ (4 * ρ + D) * V) (hB0 : 0 ≤ B)
    (r : |c' - (c * k / W + b * w / k)| ≤ (g - 1) * (|c| * k / W + B * w / k)) :
    |W * c' - Q| ≤ 4 * ρ * ((G * g * (1 + D) - 1) * (W * V)) := by
  have hW0 : 0 < W := by linarith
  have hρ1 : 1 ≤ ρ := by
    by_contra h
    have : ρ * k < 1 * k := mul_lt_mul_of_pos_right (not_le.1 h) hk0
    linarith
  have hWkρ : W / k ≤ ρ := by rw [div_le_iff₀ hk0]; exact hρ
  have hWk0 : 0 < W / k := div_pos hW0 hk0
  have r1 : |W * c' - (k * c + W * w / k * b)| ≤ (g - 1) * (k * |c| + (4 * ρ + D) * (w * V)) := by
    have e : W * c' - (k * c + W * w / k * b) = W * (c' - (c * k / W + b * w / k)) := by field_simp
    rw [e, abs_mul, abs_of_pos hW0]
    refine (mul_le_mul_of_nonneg_left r hW0.le).trans ?_
    have e2 : W * ((g - 1) * (|c| * k / W + B * w / k)) = (g - 1) * (k * |c| + W / k * B * w) := by field_simp
    rw [e2]
    refine mul_le_mul_of_nonneg_left ?_ (by linarith)
    have h1 := mul_le_mul_of_nonneg_right (mul_le_mul_of_nonneg_right hWkρ hB0) hw
    have h2 := mul_le_mul_of_nonneg_right hB hw
    have h3 : (4 * ρ + D) * V * w = (4 * ρ + D) * (w * V) := by ring
    linarith
  have r2 : |k * c + W * w / k * b - Q| ≤ 4 * ρ * ((G * (1 + D) - 1) * (k * V)) + D * (w * V) := by
    have e : k * c + W * w / k * b - Q = (k * c - Q0) + W / k * (b - be) * w := by rw [hQ]; field_simp; ring
    rw [e]
    refine (abs_add_le _ _).trans (add_le_add ie ?_)
    rw [abs_mul, abs_mul, abs_of_pos hWk0, abs_of_nonneg hw]
    have h1 := mul_le_mul_of_nonneg_right (mul_le_mul_of_nonneg_right hWkρ (abs_nonneg (b - be))) hw
    have h2 := mul_le_mul_of_nonneg_right hb hw
    have h3 : D * V * w = D * (w * V) := by ring
    linarith
  have r3 : k * |c| ≤ 2 * (k * V) + 4 * ρ * ((G * (1 + D) - 1) * (k * V)) := by
    have h1 : k * |c| = |k * c| := by rw [abs_mul, abs_of_pos hk0]
    have h2 := abs_sub_abs_le_abs_sub (k * c) Q0
    rw [h1]
    linarith
  have r4 : |W * c' - Q| ≤ (g - 1) * (k * |c| + (4 * ρ + D) * (w * V))
      + (4 * ρ * ((G * (1 + D) - 1) * (k * V)) + D * (w * V)) := by
    rw [← sub_add_sub_cancel (W * c') (k * c + W * w / k * b) Q]
    exact (abs_add_le _ _).trans (add_le_add r1 r2)
  have r6 : (g - 1) * (k * |c| + (4 * ρ + D) * (w * V))
      ≤ (g - 1) * (2 * (k * V) + 4 * ρ * ((G * (1 + D) - 1) * (k * V)) + (4 * ρ + D) * (w * V)) := by
    refine mul_le_mul_of_nonneg_left ?_ (by linarith)
    linarith
  have e : 4 * ρ * ((G * g * (1 + D) - 1) * (W * V)) =
      (g - 1) * (2 * (k * V) + 4 * ρ * ((G * (1 + D) - 1) * (k * V)) + (4 * ρ + D) * (w * V))
        + (4 * ρ * ((G * (1 + D) - 1) * (k * V)) + D * (w * V))
        + (4 * ρ * (g * (G - 1) * (1 + D) * (w * V)) + (4 * ρ - 2) * ((g - 1) * (k * V))
          + (4 * ρ - 1) * ((g - 1) * (D * (w * V))) + (4 * ρ - 1) * (D * (w * V))) := by
    rw [hWk]; ring
  have hwV : 0 ≤ w * V := mul_nonneg hw hV
  have p1 : 0 ≤ 4 * ρ * (g * (G - 1) * (1 + D) * (w * V)) := mul_nonneg (by linarith)
    (mul_nonneg (mul_nonneg (mul_nonneg (by linarith) (by linarith)) (by linarith)) hwV)
  have p2 : 0 ≤ (4 * ρ - 2) * ((g - 1) * (k * V)) :=
    mul_nonneg (by linarith) (mul_nonneg (by linarith) (mul_nonneg hk0.le hV))
  have p3 : 0 ≤ (4 * ρ - 1) * ((g - 1) * (D * (w * V))) :=
    mul_nonneg (by linarith) (mul_nonneg (by linarith) (mul_nonneg hD hwV))
  have p4 : 0 ≤ (4 * ρ - 1) * (D * (w * V)) := mul_nonneg (by linarith) (mul_nonneg hD hwV)
  rw [e]
  linarith

theorem wvar_round_arith {g D G k W w ρ v v' b be Q0 Q V : K} (hg : 1 ≤ g) (hG : 1 ≤ G) (hD : 0 ≤ D) (hk0 : 0 < k)
    (hWk : W = k + w) (hw : 0 ≤ w) (hρ : W ≤ ρ * k) (hV : 0 ≤ V)
    (ie : |k * v - Q0| ≤ (G * (1 + D) - 1) * (k * V)) (hQV : Q ≤ W * V)
    (hQ : Q = Q0 + W * w / k * be) (hb : ρ * |b - be| ≤ D * V)
    (r : |v' - (v * k / W + b * w / k)| ≤ (g - 1) * (v * k / W + b * w / k)) :
    |W * v' - Q| ≤ (G * g * (1 + D) - 1) * (W * V) := by
  have hW0 : 0 < W := by linarith
  have hWkρ : W / k ≤ ρ := by rw [div_le_iff₀ hk0]; exact hρ
  have hWk0 : 0 < W / k := div_pos hW0 hk0
  have r1 : |W * v' - (k * v + W * w / k * b)| ≤ (g - 1) * (k * v + W * w / k * b) := by
    have e : W * v' - (k * v + W * w / k * b) = W * (v' - (v * k / W + b * w / k)) := by field_simp
    rw [e, abs_mul, abs_of_pos hW0]
    refine (mul_le_mul_of_nonneg_left r hW0.le).trans (le_of_eq ?_)
    field_simp
  have r2 : |k * v + W * w / k * b - Q| ≤ (G * (1 + D) - 1) * (k * V) + D * (w * V) := by
    have e : k * v + W * w / k * b - Q = (k * v - Q0) + W / k * (b - be) * w := by rw [hQ]; field_simp; ring
    rw [e]
    refine (abs_add_le _ _).trans (add_le_add ie ?_)
    rw [abs_mul, abs_mul, abs_of_pos hWk0, abs_of_nonneg hw]
    have h1 := mul_le_mul_of_nonneg_right (mul_le_mul_of_nonneg_right hWkρ (abs_nonneg (b - be))) hw
    have h2 := mul_le_mul_of_nonneg_right hb hw
    have h3 : D * V * w = D * (w * V) := by ring
    linarith
  have r3 : k * v + W * w / k * b ≤ W * V + ((G * (1 + D) - 1) * (k * V) + D * (w * V)) := by
    have := (abs_le.1 r2).2
    linarith
  have r4 := mul_le_mul_of_nonneg_left r3 (sub_nonneg.2 hg)
  have e : (G * g * (1 + D) - 1) * (W * V) = (g - 1) * (W * V + ((G * (1 + D) - 1) * (k * V) + D * (w * V)))
      + ((G * (1 + D) - 1) * (k * V) + D * (w * V)) + g * (G - 1) * (1 + D) * (w * V) := by
    rw [hWk]; ring
  have p1 : 0 ≤ g * (G - 1) * (1 + D) * (w * V) :=
    mul_nonneg (mul_nonneg (mul_nonneg (by linarith) (by linarith)) (by linarith)) (mul_nonneg hw hV)
  rw [← sub_add_sub_cancel (W * v') (k * v + W * w / k * b) Q, e]
  refine (abs_add_le _ _).trans ?_
  linarith

/-- The partial sums of weights are positive. -/
theorem prefix_weights_pos {X : Type} (w : X → K) {ps l : List X} (hw : ∀ p ∈ ps, 0 ≤ w p)
    (h1 : ∀ p ∈ ps.head?, 0 < w p) (hl : l <+: ps) (hne : l ≠ []) : 0 < (l.map w).sum := by
  cases l with
  | nil => exact absurd rfl hne
  | cons p l =>
    obtain ⟨t, rfl⟩ := hl
    have hp := h1 p (by simp)
    have : 0 ≤ (l.map w).sum := by
      apply List.sum_nonneg
      intro z hz
      obtain ⟨q, hq, rfl⟩ := List.mem_map.1 hz
      exact hw q (by simp [hq])
    simp only [List.map_cons, List.sum_cons]
    linarith

/-! ## C94 -/

/-- **C94** `weighted_covariance` over any two means that are never further than `d` times the largest sample (variate)
from the exact ones. -/
theorem C94_covariance_over (hu : R.RelErr u) (P Q : MeanProvider (Fl R × Fl R) (Fl R)) {A B ρ d : K}
    (ps : List ((Fl R × Fl R) × Fl R)) (h : ps ≠ []) (hd0 : 0 ≤ d)
    (hA : ∀ p ∈ ps, |p.1.1.val| ≤ A) (hB : ∀ p ∈ ps, |p.1.2.val| ≤ B)
    (hw : ∀ p ∈ ps, 0 ≤ p.2.val) (h1 : ∀ p ∈ ps.head?, 0 < p.2.val)
    (hW : ∀ l, l <+: ps → R.rd (l.map fun p => p.2.val).sum = (l.map fun p => p.2.val).sum)
    (hρ1 : 1 ≤ ρ) (hρ : ∀ l p, l ++ [p] <+: ps → l ≠ [] →
      ((l ++ [p]).map fun p => p.2.val).sum ≤ ρ * (l.map fun p => p.2.val).sum)
    (hP : ∀ l, l <+: ps → l ≠ [] → ∃ m, P.read (P.run (l.map fun p => (p.1.1, p.2))) = .val m ∧
      |m.val - (l.map fun p => p.1.1.val * p.2.val).sum / (l.map fun p => p.2.val).sum| ≤ d * A)
    (hQ : ∀ l, l <+: ps → l ≠ [] → ∃ m, Q.read (Q.run (l.map fun p => (p.1.2, p.2))) = .val m ∧
      |m.val - (l.map fun p => p.1.2.val * p.2.val).sum / (l.map fun p => p.2.val).sum| ≤ d * B) :
    ∃ v : Fl R, weightedCovarianceRun P Q ps = .val v ∧
      |v.val - ((ps.map fun p => p.1.1.val * p.1.2.val * p.2.val).sum / (ps.map fun p => p.2.val).sum
          - (ps.map fun p => p.1.1.val * p.2.val).sum / (ps.map fun p => p.2.val).sum
            * ((ps.map fun p => p.1.2.val * p.2.val).sum / (ps.map fun p => p.2.val).sum))|
        ≤ 4 * ρ * (((1 + u) ^ (6 * ps.length) * (1 + ρ * (4 * d + d ^ 2)) - 1) * (A * B)) := by
  have h0 := hu.nonneg
  obtain ⟨p0, hp0⟩ := List.exists_mem_of_ne_nil _ h
  have hA0 : 0 ≤ A := (abs_nonneg _).trans (hA p0 hp0)
  have hB0 : 0 ≤ B := (abs_nonneg _).trans (hB p0 hp0)
  have hV : 0 ≤ A * B := mul_nonneg hA0 hB0
  obtain ⟨g, hg⟩ : ∃ g, g = (1 + u) ^ 6 := ⟨_, rfl⟩
  have hg1 : 1 ≤ g := hg ▸ one_le_pow₀ (by linarith)
  obtain ⟨D, hD⟩ : ∃ D, D = ρ * (4 * d + d ^ 2) := ⟨_, rfl⟩
  have hD0 : 0 ≤ D := by
    rw [hD]; exact mul_nonneg (by linarith) (by positivity)
  obtain ⟨f, hf⟩ : ∃ f : (Fl R × Fl R) × Fl R → (K × K) × K, f = fun p => ((p.1.1.val, p.1.2.val), p.2.val) := ⟨_, rfl⟩
  have fW : ∀ l : List ((Fl R × Fl R) × Fl R), ((l.map f).map Prod.snd).sum = (l.map fun p => p.2.val).sum := by
    intro l; rw [List.map_map, hf]; rfl
  have key : ∀ l, l <+: ps → (l.foldl (WCovSt.push P Q) ⟨P.init, Q.init, 0, 0, .val 0⟩).cnt = l.length ∧
      (l.foldl (WCovSt.push P Q) ⟨P.init, Q.init, 0, 0, .val 0⟩).sumW.val = (l.map fun p => p.2.val).sum ∧
      (l.foldl (WCovSt.push P Q) ⟨P.init, Q.init, 0, 0, .val 0⟩).mx = P.run (l.map fun p => (p.1.1, p.2)) ∧
      (l.foldl (WCovSt.push P Q) ⟨P.init, Q.init, 0, 0, .val 0⟩).my = Q.run (l.map fun p => (p.1.2, p.2)) ∧
      ∃ v : Fl R, (l.foldl (WCovSt.push P Q) ⟨P.init, Q.init, 0, 0, .val 0⟩).cov = .val v ∧ (l.length ≤ 0 → v.val = 0) ∧
        |(l.map fun p => p.2.val).sum * v.val - nwcov (l.map f)|
          ≤ 4 * ρ * ((g ^ l.length * (1 + D) - 1) * ((l.map fun p => p.2.val).sum * (A * B))) := by
    intro l
    induction l using List.reverseRecOn with
    | nil => exact fun _ => ⟨rfl, rfl, rfl, rfl, 0, rfl, fun _ => rfl, by simp [nwcov]⟩
    | append_singleton l x ih =>
      intro hpre
      have hpl : l <+: ps := (List.prefix_append l [x]).trans hpre
      obtain ⟨ic, iW, imx, imy, v, iv, iv0, ie⟩ := ih hpl
      have hx : x ∈ ps := hpre.subset (by simp)
      obtain ⟨mx, emx, hmx⟩ := hP (l ++ [x]) hpre (by simp)
      obtain ⟨my, emy, hmy⟩ := hQ (l ++ [x]) hpre (by simp)
      have erunx : P.push (P.run (l.map fun p => (p.1.1, p.2))) (x.1.1, x.2)
          = P.run ((l ++ [x]).map fun p => (p.1.1, p.2)) := by
        simp [MeanProvider.run, List.foldl_append]
      have eruny : Q.push (Q.run (l.map fun p => (p.1.2, p.2))) (x.1.2, x.2)
          = Q.run ((l ++ [x]).map fun p => (p.1.2, p.2)) := by
        simp [MeanProvider.run, List.foldl_append]
      have hsum : ((l ++ [x]).map fun p => p.2.val).sum = (l.map fun p => p.2.val).sum + x.2.val := by simp
      have hWpos : 0 < ((l ++ [x]).map fun p => p.2.val).sum :=
        prefix_weights_pos (fun p : (Fl R × Fl R) × Fl R => p.2.val) hw h1 hpre (by simp)
      rw [List.foldl_append, List.foldl_cons, List.foldl_nil]
      obtain ⟨st, hst⟩ : ∃ st, st = l.foldl (WCovSt.push P Q) ⟨P.init, Q.init, 0, 0, .val 0⟩ := ⟨_, rfl⟩
      rw [← hst] at ic iW imx imy iv ⊢
      have eW : (sumStep st.sumW x.2).val = ((l ++ [x]).map fun p => p.2.val).sum := by
        rw [sumStep, Fl.val_add, iW, ← hsum]
        exact hW _ hpre
      refine ⟨by simp [WCovSt.push, ic], eW, by simp only [WCovSt.push, imx, erunx],
        by simp only [WCovSt.push, imy, eruny], ?_⟩
      simp only [WCovSt.push, imx, imy, iv, erunx, eruny, emx, emy, ic]
      by_cases hl : l = []
      · subst hl
        have hv0 : v.val = 0 := iv0 (by simp)
        refine ⟨v, by simp [weightedCovarianceStep], fun hh => absurd hh (by simp), ?_⟩
        have hx0 : x.2.val ≠ 0 := by
          have := hWpos
          simp at this
          exact this.ne'
        have e0 : nwcov (([] ++ [x]).map f) = 0 := by
          rw [hf]
          simp only [nwcov, List.nil_append, List.map_cons, List.map_nil, List.sum_cons, List.sum_nil, add_zero]
          field_simp
          ring
        rw [e0, hv0, mul_zero, sub_zero, abs_zero]
        have : 0 ≤ g * (1 + D) - 1 := by nlinarith
        refine mul_nonneg (by linarith) (mul_nonneg ?_ (mul_nonneg hWpos.le hV))
        simpa using this
      · have hk := List.length_pos_iff.2 hl
        have hkpos : 0 < (l.map fun p => p.2.val).sum :=
          prefix_weights_pos (fun p : (Fl R × Fl R) × Fl R => p.2.val) hw h1 hpl hl
        obtain ⟨v', e', r⟩ := wcovariance_step_err hu hk (W := sumStep st.sumW x.2) (mx := mx) (my := my) (c := v)
          (x := x.1.1) (y := x.1.2) (w := x.2) hkpos (by rw [eW, hsum]; ring) (hW l hpl) (hw x hx)
        refine ⟨v', e', fun hh => absurd hh (by simp), ?_⟩
        have estep := nwcov_step (l.map f) (f x) (fW l) hkpos.ne'
          (W := ((l ++ [x]).map fun p => p.2.val).sum) (by rw [hsum, hf]) hWpos.ne'
        have emap : l.map f ++ [f x] = (l ++ [x]).map f := by simp
        have ef : ((fun p : (K × K) × K => p.1.1 * p.2) ∘ f)
            = fun p : (Fl R × Fl R) × Fl R => p.1.1.val * p.2.val := by rw [hf]; rfl
        have es : ((fun p : (K × K) × K => p.1.2 * p.2) ∘ f)
            = fun p : (Fl R × Fl R) × Fl R => p.1.2.val * p.2.val := by rw [hf]; rfl
        rw [emap, List.map_map, List.map_map, ef, es, show (f x).1.1 = x.1.1.val by rw [hf],
          show (f x).1.2 = x.1.2.val by rw [hf], show (f x).2 = x.2.val by rw [hf]] at estep
        have hux : |((l ++ [x]).map fun p => p.1.1.val * p.2.val).sum / ((l ++ [x]).map fun p => p.2.val).sum| ≤ A := by
          rw [abs_div, abs_of_pos hWpos, div_le_iff₀ hWpos, mul_comm]
          exact abs_wsum_le (fun p : (Fl R × Fl R) × Fl R => p.1.1.val) (fun p => p.2.val) (l ++ [x])
            (fun p hp => hA p (hpre.subset hp)) (fun p hp => hw p (hpre.subset hp))
        have huy : |((l ++ [x]).map fun p => p.1.2.val * p.2.val).sum / ((l ++ [x]).map fun p => p.2.val).sum| ≤ B := by
          rw [abs_div, abs_of_pos hWpos, div_le_iff₀ hWpos, mul_comm]
          exact abs_wsum_le (fun p : (Fl R × Fl R) × Fl R => p.1.2.val) (fun p => p.2.val) (l ++ [x])
            (fun p hp => hB p (hpre.subset hp)) (fun p hp => hw p (hpre.subset hp))
        obtain ⟨dev1, dev2⟩ := dev_prod_err hd0 (hA x hx) (hB x hx) hux huy hmx hmy
        have hQ0 := nwcov_le (A := A) (B := B) (l.map f) (by
            intro z hz
            obtain ⟨p, hp, rfl⟩ := List.mem_map.1 hz
            rw [hf]; exact hA p (hpl.subset hp)) (by
            intro z hz
            obtain ⟨p, hp, rfl⟩ := List.mem_map.1 hz
            rw [hf]; exact hB p (hpl.subset hp)) (by
            intro z hz
            obtain ⟨p, hp, rfl⟩ := List.mem_map.1 hz
            rw [hf]; exact hw p (hpl.subset hp)) (by rw [fW]; exact hkpos)
        rw [fW] at hQ0
        rw [← hg, eW] at r
        have := wcov_round_arith (G := g ^ l.length) (D := D) (ρ := ρ) hg1 (one_le_pow₀ hg1) hD0 hkpos hsum (hw x hx)
          (hρ l x hpre hl) hV ie hQ0 estep (by
            rw [hD]
            have := mul_le_mul_of_nonneg_left dev1 (by linarith : 0 ≤ ρ)
            linarith) (by
            rw [hD]
            have := mul_le_mul_of_nonneg_left dev2 (by linarith : 0 ≤ ρ)
            linarith) (mul_nonneg (abs_nonneg _) (abs_nonneg _)) r
        rw [List.length_append, List.length_singleton, pow_succ]
        exact this
  obtain ⟨-, -, -, -, v, ev, -, he⟩ := key ps List.prefix_rfl
  refine ⟨v, ev, ?_⟩
  have hn0 : 0 < (ps.map fun p => p.2.val).sum :=
    prefix_weights_pos (fun p : (Fl R × Fl R) × Fl R => p.2.val) hw h1 List.prefix_rfl h
  have e : v.val - ((ps.map fun p => p.1.1.val * p.1.2.val * p.2.val).sum / (ps.map fun p => p.2.val).sum
          - (ps.map fun p => p.1.1.val * p.2.val).sum / (ps.map fun p => p.2.val).sum
            * ((ps.map fun p => p.1.2.val * p.2.val).sum / (ps.map fun p => p.2.val).sum))
      = ((ps.map fun p => p.2.val).sum * v.val - nwcov (ps.map f)) / (ps.map fun p => p.2.val).sum := by
    rw [nwcov, fW]
    rw [hf]
    simp only [List.map_map, Function.comp_def]
    field_simp
  rw [e, abs_div, abs_of_pos hn0, div_le_iff₀ hn0]
  refine he.trans (le_of_eq ?_)
  rw [hg, ← pow_mul, hD]
  ring

/-- **C94** `weighted_variance` over any mean that is never further than `d` times the largest sample from the exact one. -/
theorem C94_variance_over (hu : R.RelErr u) (P : MeanProvider (Fl R × Fl R) (Fl R)) {M ρ d : K}
    (ps : List (Fl R × Fl R)) (h : ps ≠ []) (hd0 : 0 ≤ d) (hM : ∀ p ∈ ps, |p.1.val| ≤ M)
    (hw : ∀ p ∈ ps, 0 ≤ p.2.val) (h1 : ∀ p ∈ ps.head?, 0 < p.2.val)
    (hW : ∀ l, l <+: ps → R.rd (l.map fun p => p.2.val).sum = (l.map fun p => p.2.val).sum)
    (hρ1 : 1 ≤ ρ) (hρ : ∀ l p, l ++ [p] <+: ps → l ≠ [] →
      ((l ++ [p]).map fun p => p.2.val).sum ≤ ρ * (l.map fun p => p.2.val).sum)
    (hP : ∀ l, l <+: ps → l ≠ [] → ∃ m, P.read (P.run l) = .val m ∧
      |m.val - (l.map fun p => p.1.val * p.2.val).sum / (l.map fun p => p.2.val).sum| ≤ d * M) :
    ∃ v : Fl R, weightedVarianceRun P 0 ps = .val v ∧
      |v.val - ((ps.map fun p => p.1.val ^ 2 * p.2.val).sum / (ps.map fun p => p.2.val).sum
          - ((ps.map fun p => p.1.val * p.2.val).sum / (ps.map fun p => p.2.val).sum) ^ 2)|
        ≤ ((1 + u) ^ (6 * ps.length) * (1 + ρ * (4 * d + d ^ 2)) - 1) * M ^ 2 := by
  have h0 := hu.nonneg
  obtain ⟨p0, hp0⟩ := List.exists_mem_of_ne_nil _ h
  have hM0 : 0 ≤ M := (abs_nonneg _).trans (hM p0 hp0)
  have hV : 0 ≤ M * M := mul_nonneg hM0 hM0
  have one_ne : (1 : Fl R) ≠ 0 := by
    intro e
    rw [Fl.eq_zero_iff] at e
    exact one_ne_zero e
  have hz : ((0 : Fl R) / 1).val = 0 := by rw [Fl.val_div, Fl.val_zero, zero_div, R.zero]
  obtain ⟨g, hg⟩ : ∃ g, g = (1 + u) ^ 6 := ⟨_, rfl⟩
  have hg1 : 1 ≤ g := hg ▸ one_le_pow₀ (by linarith)
  obtain ⟨D, hD⟩ : ∃ D, D = ρ * (4 * d + d ^ 2) := ⟨_, rfl⟩
  have hD0 : 0 ≤ D := by
    rw [hD]; exact mul_nonneg (by linarith) (by positivity)
  obtain ⟨f, hf⟩ : ∃ f : Fl R × Fl R → (K × K) × K, f = fun p => ((p.1.val, p.1.val), p.2.val) := ⟨_, rfl⟩
  have fW : ∀ l : List (Fl R × Fl R), ((l.map f).map Prod.snd).sum = (l.map fun p => p.2.val).sum := by
    intro l; rw [List.map_map, hf]; rfl
  have hQle : ∀ l : List (Fl R × Fl R), l <+: ps → l ≠ [] →
      nwcov (l.map f) ≤ (l.map fun p => p.2.val).sum * (M * M) := by
    intro l hl hne
    have hpos := prefix_weights_pos (fun p : Fl R × Fl R => p.2.val) hw h1 hl hne
    have a := abs_wsum_le (A := M * M) (fun p : Fl R × Fl R => p.1.val * p.1.val) (fun p => p.2.val) l (by
      intro p hp
      rw [abs_mul]
      exact mul_le_mul (hM p (hl.subset hp)) (hM p (hl.subset hp)) (abs_nonneg _) hM0) (fun p hp => hw p (hl.subset hp))
    have b : 0 ≤ (l.map fun p => p.1.val * p.2.val).sum * (l.map fun p => p.1.val * p.2.val).sum
        / (l.map fun p => p.2.val).sum := div_nonneg (mul_self_nonneg _) hpos.le
    rw [nwcov, fW, hf]
    simp only [List.map_map, Function.comp_def]
    have := le_abs_self (l.map fun p => p.1.val * p.1.val * p.2.val).sum
    linarith
  have key : ∀ l, l <+: ps → (l.foldl (WVarianceSt.push P) ⟨P.init, 0, 0, fdiv 0 1⟩).cnt = l.length ∧
      (l.foldl (WVarianceSt.push P) ⟨P.init, 0, 0, fdiv 0 1⟩).sumW.val = (l.map fun p => p.2.val).sum ∧
      (l.foldl (WVarianceSt.push P) ⟨P.init, 0, 0, fdiv 0 1⟩).m = P.run l ∧
      ∃ v : Fl R, (l.foldl (WVarianceSt.push P) ⟨P.init, 0, 0, fdiv 0 1⟩).var = .val v ∧ (l.length ≤ 0 → v.val = 0) ∧
        0 ≤ v.val ∧ |(l.map fun p => p.2.val).sum * v.val - nwcov (l.map f)|
          ≤ (g ^ l.length * (1 + D) - 1) * ((l.map fun p => p.2.val).sum * (M * M)) := by
    intro l
    induction l using List.reverseRecOn with
    | nil => exact fun _ => ⟨rfl, rfl, rfl, 0 / 1, by simp [fdiv, one_ne], fun _ => hz, hz.ge, by simp [nwcov]⟩
    | append_singleton l x ih =>
      intro hpre
      have hpl : l <+: ps := (List.prefix_append l [x]).trans hpre
      obtain ⟨ic, iW, im, v, iv, iv0, ivn, ie⟩ := ih hpl
      have hx : x ∈ ps := hpre.subset (by simp)
      obtain ⟨m, em, hm⟩ := hP (l ++ [x]) hpre (by simp)
      have erun : P.push (P.run l) x = P.run (l ++ [x]) := by simp [MeanProvider.run, List.foldl_append]
      have hsum : ((l ++ [x]).map fun p => p.2.val).sum = (l.map fun p => p.2.val).sum + x.2.val := by simp
      have hWpos : 0 < ((l ++ [x]).map fun p => p.2.val).sum :=
        prefix_weights_pos (fun p : Fl R × Fl R => p.2.val) hw h1 hpre (by simp)
      rw [List.foldl_append, List.foldl_cons, List.foldl_nil]
      obtain ⟨st, hst⟩ : ∃ st, st = l.foldl (WVarianceSt.push P) ⟨P.init, 0, 0, fdiv 0 1⟩ := ⟨_, rfl⟩
      rw [← hst] at ic iW im iv ⊢
      have eW : (sumStep st.sumW x.2).val = ((l ++ [x]).map fun p => p.2.val).sum := by
        rw [sumStep, Fl.val_add, iW, ← hsum]
        exact hW _ hpre
      refine ⟨by simp [WVarianceSt.push, ic], eW, by simp only [WVarianceSt.push, im, erun], ?_⟩
      simp only [WVarianceSt.push, im, iv, erun, em, ic]
      by_cases hl : l = []
      · subst hl
        have hv0 : v.val = 0 := iv0 (by simp)
        refine ⟨v, by simp [weightedVarianceStep], fun hh => absurd hh (by simp), ivn, ?_⟩
        have hx0 : x.2.val ≠ 0 := by
          have := hWpos
          simp at this
          exact this.ne'
        have e0 : nwcov (([] ++ [x]).map f) = 0 := by
          rw [hf]
          simp only [nwcov, List.nil_append, List.map_cons, List.map_nil, List.sum_cons, List.sum_nil, add_zero]
          field_simp
          ring
        rw [e0, hv0, mul_zero, sub_zero, abs_zero]
        have : 0 ≤ g * (1 + D) - 1 := by nlinarith
        refine mul_nonneg ?_ (mul_nonneg hWpos.le hV)
        simpa using this
      · have hk := List.length_pos_iff.2 hl
        have hkpos : 0 < (l.map fun p => p.2.val).sum :=
          prefix_weights_pos (fun p : Fl R × Fl R => p.2.val) hw h1 hpl hl
        obtain ⟨v', e', vn', r⟩ := wvariance_step_err hu hk (W := sumStep st.sumW x.2) (m := m) (v := v)
          (x := x.1) (w := x.2) hkpos (by rw [eW, hsum]; ring) (hW l hpl) (hw x hx) ivn
        refine ⟨v', e', fun hh => absurd hh (by simp), vn', ?_⟩
        have estep := nwcov_step (l.map f) (f x) (fW l) hkpos.ne'
          (W := ((l ++ [x]).map fun p => p.2.val).sum) (by rw [hsum, hf]) hWpos.ne'
        have emap : l.map f ++ [f x] = (l ++ [x]).map f := by simp
        have ef : ((fun p : (K × K) × K => p.1.1 * p.2) ∘ f)
            = fun p : Fl R × Fl R => p.1.val * p.2.val := by rw [hf]; rfl
        have es : ((fun p : (K × K) × K => p.1.2 * p.2) ∘ f)
            = fun p : Fl R × Fl R => p.1.val * p.2.val := by rw [hf]; rfl
        rw [emap, List.map_map, List.map_map, ef, es, show (f x).1.1 = x.1.val by rw [hf],
          show (f x).1.2 = x.1.val by rw [hf], show (f x).2 = x.2.val by rw [hf]] at estep
        have hux : |((l ++ [x]).map fun p => p.1.val * p.2.val).sum / ((l ++ [x]).map fun p => p.2.val).sum| ≤ M := by
          rw [abs_div, abs_of_pos hWpos, div_le_iff₀ hWpos, mul_comm]
          exact abs_wsum_le (fun p : Fl R × Fl R => p.1.val) (fun p => p.2.val) (l ++ [x])
            (fun p hp => hM p (hpre.subset hp)) (fun p hp => hw p (hpre.subset hp))
        have dev1 := (dev_prod_err hd0 (hM x hx) (hM x hx) hux hux hm hm).1
        have esq : (m.val - x.1.val) * (m.val - x.1.val) = (x.1.val - m.val) * (x.1.val - m.val) := by ring
        rw [esq] at dev1
        rw [← hg, eW] at r
        have := wvar_round_arith (G := g ^ l.length) (D := D) (ρ := ρ) hg1 (one_le_pow₀ hg1) hD0 hkpos hsum (hw x hx)
          (hρ l x hpre hl) hV ie (hQle (l ++ [x]) hpre (by simp)) estep (by
            rw [hD]
            have := mul_le_mul_of_nonneg_left dev1 (by linarith : 0 ≤ ρ)
            linarith) r
        rw [List.length_append, List.length_singleton, pow_succ]
        exact this
  obtain ⟨-, -, -, v, ev, -, -, he⟩ := key ps List.prefix_rfl
  refine ⟨v, ev, ?_⟩
  have hn0 : 0 < (ps.map fun p => p.2.val).sum :=
    prefix_weights_pos (fun p : Fl R × Fl R => p.2.val) hw h1 List.prefix_rfl h
  have e : v.val - ((ps.map fun p => p.1.val ^ 2 * p.2.val).sum / (ps.map fun p => p.2.val).sum
          - ((ps.map fun p => p.1.val * p.2.val).sum / (ps.map fun p => p.2.val).sum) ^ 2)
      = ((ps.map fun p => p.2.val).sum * v.val - nwcov (ps.map f)) / (ps.map fun p => p.2.val).sum := by
    rw [nwcov, fW]
    rw [hf]
    simp only [List.map_map, Function.comp_def, ← pow_two]
    field_simp
  rw [e, abs_div, abs_of_pos hn0, div_le_iff₀ hn0]
  refine he.trans (le_of_eq ?_)
  rw [hg, ← pow_mul, hD]
  ring

/-- The error factor of `immediate_weighted_mean` (C78). -/
theorem immW_factor_mono (h0 : 0 ≤ u) (hu1 : u < 1) {a b : ℕ} (hab : a ≤ b) :
    (2 / (1 - u) ^ a - 1) * (1 + u) ^ (4 * a) - 1 ≤ (2 / (1 - u) ^ b - 1) * (1 + u) ^ (4 * b) - 1 ∧
      0 ≤ (2 / (1 - u) ^ a - 1) * (1 + u) ^ (4 * a) - 1 := by
  have hp : ∀ n : ℕ, 0 < (1 - u) ^ n := fun n => pow_pos (by linarith) n
  have h1 : ∀ n : ℕ, 1 ≤ 1 / (1 - u) ^ n := fun n => by
    rw [le_div_iff₀ (hp n), one_mul]
    exact pow_le_one₀ (by linarith) (by linarith)
  have h2 : 1 / (1 - u) ^ a ≤ 1 / (1 - u) ^ b :=
    one_div_le_one_div_of_le (hp b) (pow_le_pow_of_le_one (by linarith) (by linarith) hab)
  have h3 : (1 + u) ^ (4 * a) ≤ (1 + u) ^ (4 * b) := pow_le_pow_right₀ (by linarith) (by omega)
  have h4 : 1 ≤ (1 + u) ^ (4 * a) := one_le_pow₀ (by linarith)
  have e : ∀ n : ℕ, 2 / (1 - u) ^ n = 2 * (1 / (1 - u) ^ n) := fun n => by ring
  have ha := h1 a
  rw [e a, e b]
  constructor
  · have := mul_le_mul (by linarith : 2 * (1 / (1 - u) ^ a) - 1 ≤ 2 * (1 / (1 - u) ^ b) - 1) h3 (by linarith)
      (by linarith)
    linarith
  · have := mul_le_mul (by linarith : 1 ≤ 2 * (1 / (1 - u) ^ a) - 1) h4 (by norm_num) (by linarith)
    linarith

/-- **C94** `weighted_variance` (with `immediate_weighted_mean`, as its dependency is). -/
theorem C94_variance (hu : R.RelErr u) (hu1 : u < 1) {M ρ d : K} (ps : List (Fl R × Fl R)) (h : ps ≠ [])
    (hd : d = (2 / (1 - u) ^ ps.length - 1) * (1 + u) ^ (4 * ps.length) - 1)
    (hM : ∀ p ∈ ps, |p.1.val| ≤ M) (hw : ∀ p ∈ ps, 0 ≤ p.2.val) (h1 : ∀ p ∈ ps.head?, 0 < p.2.val)
    (hW : ∀ l, l <+: ps → R.rd (l.map fun p => p.2.val).sum = (l.map fun p => p.2.val).sum)
    (hρ1 : 1 ≤ ρ) (hρ : ∀ l p, l ++ [p] <+: ps → l ≠ [] →
      ((l ++ [p]).map fun p => p.2.val).sum ≤ ρ * (l.map fun p => p.2.val).sum) :
    ∃ v : Fl R, weightedVarianceRun (immWMean 0) 0 ps = .val v ∧
      |v.val - ((ps.map fun p => p.1.val ^ 2 * p.2.val).sum / (ps.map fun p => p.2.val).sum
          - ((ps.map fun p => p.1.val * p.2.val).sum / (ps.map fun p => p.2.val).sum) ^ 2)|
        ≤ ((1 + u) ^ (6 * ps.length) * (1 + ρ * (4 * d + d ^ 2)) - 1) * M ^ 2 := by
  have h0 := hu.nonneg
  have hd0 : 0 ≤ d := hd ▸ (immW_factor_mono h0 hu1 (le_refl ps.length)).2
  refine C94_variance_over hu (immWMean 0) ps h hd0 hM hw h1 hW hρ1 hρ ?_
  intro l hl hne
  obtain ⟨m, em, hm⟩ := C78_immediate_mean hu hu1 l hne (fun p hp => hM p (hl.subset hp)) (fun p hp => hw p (hl.subset hp))
    (by
      obtain ⟨t, rfl⟩ := hl
      intro p hp
      apply h1
      cases l with
      | nil => exact absurd rfl hne
      | cons a l => simpa using hp)
  refine ⟨m, em, hm.trans ?_⟩
  obtain ⟨p, hp⟩ := List.exists_mem_of_ne_nil _ h
  rw [hd]
  exact mul_le_mul_of_nonneg_right (immW_factor_mono h0 hu1 hl.length_le).1 ((abs_nonneg _).trans (hM p hp))

/-- The error factor of `weighted_mean` (C78). -/
theorem lazyW_factor_mono (h0 : 0 ≤ u) (hu1 : u < 1) {a b : ℕ} (hab : a ≤ b) :
    (1 + u) ^ (a + 2) / (1 - u) ^ a - 1 ≤ (1 + u) ^ (b + 2) / (1 - u) ^ b - 1 ∧
      0 ≤ (1 + u) ^ (a + 2) / (1 - u) ^ a - 1 := by
  have hp : ∀ n : ℕ, 0 < (1 - u) ^ n := fun n => pow_pos (by linarith) n
  constructor
  · refine sub_le_sub_right (div_le_div₀ (by positivity) (pow_le_pow_right₀ (by linarith) (by omega)) (hp b)
      (pow_le_pow_of_le_one (by linarith) (by linarith) hab)) 1
  · rw [sub_nonneg, le_div_iff₀ (hp a), one_mul]
    exact (pow_le_one₀ (by linarith) (by linarith)).trans (one_le_pow₀ (by linarith))

/-- `weighted_mean` over a prefix. -/
theorem lazyWMean_prefix_err (hu : R.RelErr u) (hu1 : u < 1) {X : Type} (f w : X → Fl R) {A : K} {ps l : List X}
    (hA : ∀ p ∈ ps, |(f p).val| ≤ A) (hw : ∀ p ∈ ps, 0 ≤ (w p).val) (hl : l <+: ps) (hW : 0 < (l.map fun p => (w p).val).sum) :
    ∃ m, (lazyWMean (0 : Fl R)).read ((lazyWMean 0).run (l.map fun p => (f p, w p))) = .val m ∧
      |m.val - (l.map fun p => (f p).val * (w p).val).sum / (l.map fun p => (w p).val).sum|
        ≤ ((1 + u) ^ (ps.length + 2) / (1 - u) ^ ps.length - 1) * A := by
  have h0 := hu.nonneg
  obtain ⟨m, em, hm⟩ := C78_lazy_mean hu hu1 (l.map fun p => (f p, w p)) (by
      intro q hq
      obtain ⟨p, hp, rfl⟩ := List.mem_map.1 hq
      exact hw p (hl.subset hp)) (by
      rw [List.map_map]; exact hW)
  refine ⟨m, em, ?_⟩
  simp only [List.map_map, Function.comp_def, List.length_map] at hm
  refine hm.trans (mul_le_mul (lazyW_factor_mono h0 hu1 hl.length_le).1 ?_ ?_
    (lazyW_factor_mono h0 hu1 (le_refl _)).2)
  · rw [div_le_iff₀ hW, mul_comm]
    have e : (l.map fun p => |(f p).val * (w p).val|) = l.map fun p => |(f p).val| * (w p).val :=
      List.map_congr_left fun p hp => by rw [abs_mul, abs_of_nonneg (hw p (hl.subset hp))]
    rw [e]
    exact (le_abs_self _).trans (abs_wsum_le (fun p => |(f p).val|) (fun p => (w p).val) l
      (fun p hp => by rw [abs_abs]; exact hA p (hl.subset hp)) (fun p hp => hw p (hl.subset hp)))
  · exact div_nonneg (absSum_nonneg (fun p : X => (f p).val * (w p).val) l) hW.le

/-- **C94** `weighted_covariance` (with `weighted_mean` and `weighted_mean_of_variates`, as its dependencies are). -/
theorem C94_covariance (hu : R.RelErr u) (hu1 : u < 1) {A B ρ d : K} (ps : List ((Fl R × Fl R) × Fl R)) (h : ps ≠ [])
    (hd : d = (1 + u) ^ (ps.length + 2) / (1 - u) ^ ps.length - 1)
    (hA : ∀ p ∈ ps, |p.1.1.val| ≤ A) (hB : ∀ p ∈ ps, |p.1.2.val| ≤ B)
    (hw : ∀ p ∈ ps, 0 ≤ p.2.val) (h1 : ∀ p ∈ ps.head?, 0 < p.2.val)
    (hW : ∀ l, l <+: ps → R.rd (l.map fun p => p.2.val).sum = (l.map fun p => p.2.val).sum)
    (hρ1 : 1 ≤ ρ) (hρ : ∀ l p, l ++ [p] <+: ps → l ≠ [] →
      ((l ++ [p]).map fun p => p.2.val).sum ≤ ρ * (l.map fun p => p.2.val).sum) :
    ∃ v : Fl R, weightedCovarianceRun (lazyWMean 0) (lazyWMean 0) ps = .val v ∧
      |v.val - ((ps.map fun p => p.1.1.val * p.1.2.val * p.2.val).sum / (ps.map fun p => p.2.val).sum
          - (ps.map fun p => p.1.1.val * p.2.val).sum / (ps.map fun p => p.2.val).sum
            * ((ps.map fun p => p.1.2.val * p.2.val).sum / (ps.map fun p => p.2.val).sum))|
        ≤ 4 * ρ * (((1 + u) ^ (6 * ps.length) * (1 + ρ * (4 * d + d ^ 2)) - 1) * (A * B)) := by
  have h0 := hu.nonneg
  have hd0 : 0 ≤ d := hd ▸ (lazyW_factor_mono h0 hu1 (le_refl ps.length)).2
  have hpos := fun l hl hne => prefix_weights_pos (l := l) (fun p : (Fl R × Fl R) × Fl R => p.2.val) hw h1 hl hne
  refine C94_covariance_over hu (lazyWMean 0) (lazyWMean 0) ps h hd0 hA hB hw h1 hW hρ1 hρ ?_ ?_
  · intro l hl hne
    rw [hd]
    exact lazyWMean_prefix_err hu hu1 (fun p : (Fl R × Fl R) × Fl R => p.1.1) Prod.snd hA hw hl (hpos l hl hne)
  · intro l hl hne
    rw [hd]
    exact lazyWMean_prefix_err hu hu1 (fun p : (Fl R × Fl R) × Fl R => p.1.2) Prod.snd hB hw hl (hpos l hl hne)

/-- **C94** The conditions on the weights hold if they are integers from 1 to `m` that add up to no more than the integers
that are representable; `ρ` is `m + 1`. -/
theorem C94_integer_weights {X : Type} (w : X → K) {N m : ℕ} (hc : R.Counts N) (ps : List X)
    (hi : ∀ p ∈ ps, ∃ k : ℕ, w p = k ∧ 1 ≤ k ∧ k ≤ m) (hN : (ps.map w).sum ≤ N) :
    (∀ p ∈ ps, 0 ≤ w p) ∧ (∀ p ∈ ps.head?, 0 < w p) ∧ (∀ l, l <+: ps → R.rd (l.map w).sum = (l.map w).sum) ∧
      ∀ l p, l ++ [p] <+: ps → l ≠ [] → ((l ++ [p]).map w).sum ≤ ((m : K) + 1) * (l.map w).sum := by
  have hpos : ∀ p ∈ ps, 1 ≤ w p := by
    intro p hp
    obtain ⟨k, e, h1, -⟩ := hi p hp
    rw [e]; exact_mod_cast h1
  have hsum : ∀ l : List X, (∀ p ∈ l, p ∈ ps) → ∃ k : ℕ, (l.map w).sum = k := by
    intro l
    induction l with
    | nil => exact fun _ => ⟨0, by simp⟩
    | cons p l ih =>
      intro hl
      obtain ⟨k, e⟩ := ih fun q hq => hl q (by simp [hq])
      obtain ⟨j, ej, -⟩ := hi p (hl p (by simp))
      exact ⟨j + k, by simp [e, ej]⟩
  have h1 : ∀ p ∈ ps.head?, 0 < w p := fun p hp => lt_of_lt_of_le one_pos (hpos p (List.mem_of_mem_head? hp))
  have h0 : ∀ p ∈ ps, 0 ≤ w p := fun p hp => zero_le_one.trans (hpos p hp)
  refine ⟨h0, h1, ?_, ?_⟩
  · intro l hl
    obtain ⟨k, e⟩ := hsum l fun p hp => hl.subset hp
    rw [e]
    refine hc k ?_
    have : (l.map w).sum ≤ (ps.map w).sum := by
      obtain ⟨t, rfl⟩ := hl
      rw [List.map_append, List.sum_append]
      have : 0 ≤ (t.map w).sum := List.sum_nonneg fun z hz => by
        obtain ⟨q, hq, rfl⟩ := List.mem_map.1 hz
        exact h0 q (by simp [hq])
      linarith
    have h2 := this.trans hN
    rw [e] at h2
    exact_mod_cast h2
  · intro l p hl hne
    have hpl : l <+: ps := (List.prefix_append l [p]).trans hl
    have hW : 1 ≤ (l.map w).sum := by
      obtain ⟨k, e⟩ := hsum l fun p hp => hpl.subset hp
      have := prefix_weights_pos w h0 h1 hpl hne
      rw [e] at this ⊢
      exact_mod_cast this
    obtain ⟨k, e, -, hk⟩ := hi p (hl.subset (by simp))
    have hkm : w p ≤ m := by rw [e]; exact_mod_cast hk
    have hm0 : (0 : K) ≤ m := Nat.cast_nonneg m
    have := mul_le_mul_of_nonneg_left hW hm0
    rw [List.map_append, List.sum_append, List.map_singleton, List.sum_singleton]
    linarith

/-- **C94, dominant weights**: `sum_of_weights - weight` is zero in `double` if the weight is large compared to the sum of
those before it, and the weighted variance and covariance are divisions by zero.  The two-moment variance is fine. -/
theorem C94_dominant_weight_fails :
    let W := Fl.ofK double (2 ^ 54)
    weightedVarianceRun (immWMean (0 : Fl double)) 0 [(0, 1), (1, W)] = .nonfinite ∧
    weightedCovarianceRun (lazyWMean (0 : Fl double)) (lazyWMean 0) [((0, 0), 1), ((1, 1), W)] = .nonfinite ∧
    ∃ v, Fl.val <$> lazyWeightedVarianceRun (lazyWMean (0 : Fl double)) [(0, 1), (1, W)] = .val v := by
  have h2 : ∀ x : Fl double, mpow x 2 = x * x := by
    intro x
    rw [mpow, mpow]
    simp
  refine ⟨by decide +kernel, by decide +kernel, 0, ?_⟩
  simp only [lazyWeightedVarianceRun, weightedMomentRun, List.foldl_cons, List.foldl_nil, WMomentSt.push, h2]
  decide +kernel

/-! ## The hypotheses can be met -/

/-- Integer weights 2, 1, 3. -/
def intWeighted : List (Fl double × Fl double) :=
  [(Fl.ofK double (1 / 10), 1 + 1), (Fl.ofK double (-1 / 3), 1), (1, 1 + 1 + 1)]

theorem intWeighted_ok : (∀ p ∈ intWeighted, 0 ≤ p.2.val) ∧ (∀ p ∈ intWeighted.head?, 0 < p.2.val) ∧
    (∀ l, l <+: intWeighted → double.rd (l.map fun p => p.2.val).sum = (l.map fun p => p.2.val).sum) ∧
    ∀ l p, l ++ [p] <+: intWeighted → l ≠ [] →
      ((l ++ [p]).map fun p => p.2.val).sum ≤ (((3 : ℕ) : ℚ) + 1) * (l.map fun p => p.2.val).sum :=
  C94_integer_weights (R := double) (N := 6) (m := 3) (fun p : Fl double × Fl double => p.2.val)
  (double_counts (by norm_num)) intWeighted (by
    intro p hp
    simp only [intWeighted, List.mem_cons, List.not_mem_nil, or_false] at hp
    rcases hp with rfl | rfl | rfl
    · exact ⟨2, by decide +kernel, by norm_num, by norm_num⟩
    · exact ⟨1, by decide +kernel, by norm_num, by norm_num⟩
    · exact ⟨3, by decide +kernel, by norm_num, by norm_num⟩) (by decide +kernel)

example := C94_variance double_relErr (by norm_num) (M := 1) intWeighted (by simp [intWeighted]) rfl
  (by decide +kernel) intWeighted_ok.1 intWeighted_ok.2.1 intWeighted_ok.2.2.1 (by norm_num) intWeighted_ok.2.2.2

example : ∃ v, weightedCovarianceRun (lazyWMean (0 : Fl double)) (lazyWMean 0) [((1, 1), 1 + 1), ((1, 0), 1)] = .val v := by
  obtain ⟨h1, h2, h3, h4⟩ := C94_integer_weights (R := double) (N := 3) (m := 2)
    (fun p : (Fl double × Fl double) × Fl double => p.2.val) (double_counts (by norm_num))
    [((1, 1), 1 + 1), ((1, 0), 1)] (by
      intro p hp
      simp only [List.mem_cons, List.not_mem_nil, or_false] at hp
      rcases hp with rfl | rfl
      · exact ⟨2, by decide +kernel, by norm_num, by norm_num⟩
      · exact ⟨1, by decide +kernel, by norm_num, by norm_num⟩) (by decide +kernel)
  obtain ⟨v, hv, -⟩ := C94_covariance double_relErr (by norm_num) (A := 1) (B := 1) [((1, 1), 1 + 1), ((1, 0), 1)] (by simp)
    rfl (by decide +kernel) (by decide +kernel) h1 h2 h3 (by norm_num) h4
  exact ⟨v, hv⟩

end Acc
