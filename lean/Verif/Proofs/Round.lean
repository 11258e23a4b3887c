import Verif.Model.Round
import Verif.Model.Basic
import Verif.Model.Weighted
import Mathlib.Data.List.Induction
import Mathlib.Tactic.Ring
import Mathlib.Tactic.NormNum

/-!
# Error analysis of rounded sums
-/

namespace Acc

set_option linter.unusedSectionVars false

variable {K : Type} [Field K] [LinearOrder K] [IsStrictOrderedRing K] {R : Rounding K} {u : K}

namespace Rounding

theorem RelErr.nonneg (hu : R.RelErr u) : 0 ≤ u := by
  have := hu 1
  rw [R.one, sub_self, abs_zero, abs_one, mul_one] at this
  exact this

/-- A rounded operation on an approximation: if `|z - t| ≤ d * a`, `|t| ≤ a`, then the rounded `z` is off by at most
`((1 + u) * (1 + d) - 1) * a`. -/
theorem RelErr.round (hu : R.RelErr u) {z t d a : K} (ht : |t| ≤ a) (h : |z - t| ≤ d * a) :
    |R.rd z - t| ≤ ((1 + u) * (1 + d) - 1) * a := by
  have h0 := hu.nonneg
  have h1 := hu z
  have h2 : |z| ≤ a + d * a := by
    calc |z| = |(z - t) + t| := by ring_nf
      _ ≤ |z - t| + |t| := abs_add_le _ _
      _ ≤ a + d * a := by linarith
  calc |R.rd z - t| = |(R.rd z - z) + (z - t)| := by ring_nf
    _ ≤ |R.rd z - z| + |z - t| := abs_add_le _ _
    _ ≤ u * |z| + d * a := by linarith
    _ ≤ u * (a + d * a) + d * a := by have := mul_le_mul_of_nonneg_left h2 h0; linarith
    _ = _ := by ring

theorem nonneg (R : Rounding K) {x : K} (h : 0 ≤ x) : 0 ≤ R.rd x := R.zero ▸ R.mono h

theorem nonpos (R : Rounding K) {x : K} (h : x ≤ 0) : R.rd x ≤ 0 := R.zero ▸ R.mono h

end Rounding

theorem absSum_nonneg {A : Type} (f : A → K) (l : List A) : 0 ≤ (l.map fun a => |f a|).sum :=
  List.sum_nonneg (by simp only [List.mem_map]; rintro _ ⟨a, _, rfl⟩; exact abs_nonneg _)

theorem abs_sum_le {A : Type} (f : A → K) (l : List A) :
    |(l.map f).sum| ≤ (l.map fun a => |f a|).sum := by
  induction l with
  | nil => simp
  | cons a l ih =>
    simp only [List.map_cons, List.sum_cons]
    exact (abs_add_le _ _).trans (by linarith)

/-- Rounded summation of terms `y a` that approximate `t a` with relative error `d`. -/
theorem foldl_add_err (hu : R.RelErr u) {A : Type} (y : A → Fl R) (t : A → K) {d : K} (hd : 0 ≤ d)
    (hy : ∀ a, |(y a).val - t a| ≤ d * |t a|) (x0 : Fl R) (l : List A) :
    |(l.foldl (fun s a => s + y a) x0).val - (x0.val + (l.map t).sum)|
      ≤ ((1 + u) ^ l.length * (1 + d) - 1) * (|x0.val| + (l.map fun a => |t a|).sum) := by
  have h0 := hu.nonneg
  induction l using List.reverseRecOn with
  | nil => simpa using mul_nonneg hd (abs_nonneg x0.val)
  | append_singleton l a ih =>
    rw [List.foldl_append, List.foldl_cons, List.foldl_nil, List.map_append, List.map_append,
      List.sum_append, List.sum_append, List.length_append]
    simp only [List.map_cons, List.map_nil, List.sum_cons, List.sum_nil, add_zero, List.length_cons,
      List.length_nil, zero_add]
    generalize (l.foldl (fun s a => s + y a) x0) = s at ih ⊢
    have hX : |x0.val + (l.map t).sum| ≤ |x0.val| + (l.map fun a => |t a|).sum :=
      (abs_add_le _ _).trans (by have := abs_sum_le t l; linarith)
    have hA : 0 ≤ |x0.val| + (l.map fun a => |t a|).sum :=
      add_nonneg (abs_nonneg _) (absSum_nonneg t l)
    rw [← add_assoc x0.val, ← add_assoc |x0.val|]
    generalize x0.val + (l.map t).sum = X at ih hX ⊢
    generalize |x0.val| + (l.map fun a => |t a|).sum = B at ih hX hA ⊢
    have hp : 1 ≤ (1 + u) ^ l.length := one_le_pow₀ (by linarith)
    have := hu.round (z := s.val + (y a).val) (t := X + t a) (d := (1 + u) ^ l.length * (1 + d) - 1)
      (a := B + |t a|) ((abs_add_le _ _).trans (by linarith)) ?_
    · rw [Fl.val_add, pow_succ]
      refine this.trans (le_of_eq ?_)
      ring
    · calc |s.val + (y a).val - (X + t a)| = |(s.val - X) + ((y a).val - t a)| := by ring_nf
        _ ≤ |s.val - X| + |(y a).val - t a| := abs_add_le _ _
        _ ≤ ((1 + u) ^ l.length * (1 + d) - 1) * B + d * |t a| := add_le_add ih (hy a)
        _ ≤ _ := by
          have : d * |t a| ≤ ((1 + u) ^ l.length * (1 + d) - 1) * |t a| :=
            mul_le_mul_of_nonneg_right (by nlinarith) (abs_nonneg _)
          linarith

/-- `numeric::pow` of the code: `N - 1` roundings. -/
theorem mpow_err (hu : R.RelErr u) (x : Fl R) (N : ℕ) (hN : 0 < N) :
    |(mpow x N).val - x.val ^ N| ≤ ((1 + u) ^ (N - 1) - 1) * |x.val ^ N| := by
  have h0 := hu.nonneg
  induction N using Nat.strong_induction_on with
  | _ N ih =>
    rw [mpow]
    rw [dif_neg (by omega)]
    by_cases h1 : N = 1
    · subst h1; simp
    rw [dif_neg h1]
    have ihk := ih (N / 2) (by omega) (by omega)
    obtain ⟨k, hk⟩ : ∃ k, N / 2 = k + 1 := ⟨N / 2 - 1, by omega⟩
    rw [hk] at ihk ⊢
    rw [Nat.add_sub_cancel] at ihk
    generalize (mpow x (k + 1)) = y at ihk
    have hg : 1 ≤ (1 + u) ^ k := one_le_pow₀ (by linarith)
    have hprod : |y.val * y.val - x.val ^ (k + 1) * x.val ^ (k + 1)|
        ≤ ((1 + u) ^ k * (1 + u) ^ k - 1) * |x.val ^ (k + 1) * x.val ^ (k + 1)| := by
      rw [abs_mul]
      have hyb : |y.val| ≤ (1 + u) ^ k * |x.val ^ (k + 1)| := by
        calc |y.val| = |(y.val - x.val ^ (k + 1)) + x.val ^ (k + 1)| := by ring_nf
          _ ≤ |y.val - x.val ^ (k + 1)| + |x.val ^ (k + 1)| := abs_add_le _ _
          _ ≤ _ := by linarith
      calc |y.val * y.val - x.val ^ (k + 1) * x.val ^ (k + 1)|
          = |(y.val - x.val ^ (k + 1)) * y.val + x.val ^ (k + 1) * (y.val - x.val ^ (k + 1))| := by
            ring_nf
        _ ≤ |y.val - x.val ^ (k + 1)| * |y.val| + |x.val ^ (k + 1)| * |y.val - x.val ^ (k + 1)| := by
            refine (abs_add_le _ _).trans ?_
            rw [abs_mul, abs_mul]
        _ ≤ (((1 + u) ^ k - 1) * |x.val ^ (k + 1)|) * ((1 + u) ^ k * |x.val ^ (k + 1)|)
            + |x.val ^ (k + 1)| * (((1 + u) ^ k - 1) * |x.val ^ (k + 1)|) := by
            apply add_le_add
            · exact mul_le_mul ihk hyb (abs_nonneg _) (mul_nonneg (by linarith) (abs_nonneg _))
            · exact mul_le_mul_of_nonneg_left ihk (abs_nonneg _)
        _ = _ := by ring
    have hz := hu.round le_rfl hprod
    have ez : (1 + u) * (1 + ((1 + u) ^ k * (1 + u) ^ k - 1)) - 1 = (1 + u) ^ (2 * k + 1) - 1 := by ring
    rw [ez] at hz
    dsimp only
    split
    · have e2 : N = 2 * k + 3 := by omega
      subst e2
      rw [Fl.val_mul, Fl.val_mul]
      generalize R.rd (y.val * y.val) = z at hz ⊢
      have : |z * x.val - x.val ^ (2 * k + 3)| ≤ ((1 + u) ^ (2 * k + 1) - 1) * |x.val ^ (2 * k + 3)| := by
        calc |z * x.val - x.val ^ (2 * k + 3)|
            = |(z - x.val ^ (k + 1) * x.val ^ (k + 1)) * x.val| := by ring_nf
          _ = |z - x.val ^ (k + 1) * x.val ^ (k + 1)| * |x.val| := abs_mul _ _
          _ ≤ (((1 + u) ^ (2 * k + 1) - 1) * |x.val ^ (k + 1) * x.val ^ (k + 1)|) * |x.val| :=
              mul_le_mul_of_nonneg_right hz (abs_nonneg _)
          _ = ((1 + u) ^ (2 * k + 1) - 1) * |x.val ^ (k + 1) * x.val ^ (k + 1) * x.val| := by
              rw [mul_assoc, ← abs_mul]
          _ = _ := by ring_nf
      refine (hu.round le_rfl this).trans (le_of_eq ?_)
      rw [show 2 * k + 3 - 1 = (2 * k + 1) + 1 by omega, pow_succ (1 + u) (2 * k + 1)]
      ring
    · have e2 : N = 2 * k + 2 := by omega
      subst e2
      rw [Fl.val_mul, show 2 * k + 2 - 1 = 2 * k + 1 by omega,
        show x.val ^ (2 * k + 2) = x.val ^ (k + 1) * x.val ^ (k + 1) by ring]
      exact hz

/-- Division by a count. -/
theorem div_count_err (hu : R.RelErr u) {n : ℕ} (hn : 0 < n) (hc : R.rd (n : K) = n) {s : Fl R} {t d a : K}
    (ht : |t| ≤ a) (h : |s.val - t| ≤ d * a) :
    ∃ m : Fl R, fdiv s (n : Fl R) = .val m ∧
      |m.val - t / n| ≤ ((1 + u) * (1 + d) - 1) * (a / n) := by
  have hn' : (0 : K) < n := by exact_mod_cast hn
  have hne : (n : Fl R) ≠ 0 := by
    intro e
    rw [Fl.eq_zero_iff, Fl.val_natCast, hc] at e
    exact hn'.ne' e
  refine ⟨s / (n : Fl R), by simp [fdiv, hne], ?_⟩
  rw [Fl.val_div, Fl.val_natCast, hc]
  refine hu.round ?_ ?_
  · rw [abs_div, abs_of_pos hn']
    exact div_le_div_of_nonneg_right ht hn'.le
  · rw [← sub_div, abs_div, abs_of_pos hn', mul_div_assoc']
    exact div_le_div_of_nonneg_right h hn'.le

/-- One Kahan step. -/
theorem kahan_step_err (hu : R.RelErr u) (hu32 : u ≤ 1 / 32) (k : Kahan (Fl R)) (x : Fl R) {X A E : K}
    (hX : |X| ≤ A) (hE : E ≤ A / 2) (hc : |k.compensation.val| ≤ 3 * u * A)
    (hP : |k.sum.val - k.compensation.val - X| ≤ E) :
    |(k.step x).compensation.val| ≤ 3 * u * (A + |x.val|) ∧
    |(k.step x).sum.val - (k.step x).compensation.val - (X + x.val)|
      ≤ E + 2 * u * |x.val| + 12 * u ^ 2 * (A + |x.val|) := by
  have h0 := hu.nonneg
  unfold Kahan.step
  dsimp only
  simp only [Fl.val_sub, Fl.val_add]
  generalize k.sum.val = s at *
  generalize k.compensation.val = c at *
  have r1 := hu (x.val - c)
  generalize R.rd (x.val - c) = y at *
  have r2 := hu (s + y)
  generalize R.rd (s + y) = s' at *
  have r3 := hu (s' - s)
  generalize R.rd (s' - s) = t at *
  have r4 := hu (t - y)
  generalize R.rd (t - y) = c' at *
  have hx := abs_nonneg x.val
  have hA : 0 ≤ A := (abs_nonneg _).trans hX
  obtain ⟨B, hB⟩ : ∃ B, B = A + |x.val| := ⟨_, rfl⟩
  rw [← hB]
  have hB0 : 0 ≤ B := by linarith
  -- w = u B, v = u² B
  obtain ⟨w, hw⟩ : ∃ w, w = u * B := ⟨_, rfl⟩
  obtain ⟨v, hv⟩ : ∃ v, v = u * w := ⟨_, rfl⟩
  have hw0 : 0 ≤ w := hw ▸ mul_nonneg h0 hB0
  have hv0 : 0 ≤ v := hv ▸ mul_nonneg h0 hw0
  have hwB : w ≤ B / 32 := by rw [hw]; nlinarith
  have hvw : v ≤ w / 32 := by rw [hv]; nlinarith
  have huv : u * v ≤ v / 32 := by nlinarith
  have huv0 : 0 ≤ u * v := mul_nonneg h0 hv0
  have hux : u * |x.val| ≤ w := by rw [hw]; exact mul_le_mul_of_nonneg_left (by linarith) h0
  have hux0 : 0 ≤ u * |x.val| := mul_nonneg h0 hx
  have huux : u * (u * |x.val|) ≤ v := by rw [hv]; exact mul_le_mul_of_nonneg_left hux h0
  have hcw : |c| ≤ 3 * w := by
    refine hc.trans ?_
    rw [hw, mul_assoc]
    have : u * A ≤ u * B := mul_le_mul_of_nonneg_left (by linarith) h0
    linarith
  -- e1
  have hxc : |x.val - c| ≤ |x.val| + |c| := abs_sub _ _
  have e1 : |y - (x.val - c)| ≤ u * |x.val| + 3 * v := by
    refine r1.trans ?_
    have := mul_le_mul_of_nonneg_left hxc h0
    have := mul_le_mul_of_nonneg_left hcw h0
    rw [hv]; linarith
  -- s + y
  have hsy : |s + y| ≤ 155 / 100 * B := by
    have : s + y = (s - c - X) + X + x.val + (y - (x.val - c)) := by ring
    rw [this]
    have a1 := abs_add_le ((s - c - X) + X + x.val) (y - (x.val - c))
    have a2 := abs_add_le ((s - c - X) + X) x.val
    have a3 := abs_add_le (s - c - X) X
    linarith
  have e2 : |s' - (s + y)| ≤ 155 / 100 * w := by
    refine r2.trans ?_
    have := mul_le_mul_of_nonneg_left hsy h0
    rw [hw]; linarith
  have hy : |y| ≤ |x.val| + 3 * w + (u * |x.val| + 3 * v) := by
    have : y = (x.val - c) + (y - (x.val - c)) := by ring
    rw [this]
    have a1 := abs_add_le (x.val - c) (y - (x.val - c))
    linarith
  have hd : |s' - s| ≤ |x.val| + 3 * w + (u * |x.val| + 3 * v) + 155 / 100 * w := by
    have : s' - s = y + (s' - (s + y)) := by ring
    rw [this]
    have a1 := abs_add_le y (s' - (s + y))
    linarith
  have e3 : |t - (s' - s)| ≤ u * |x.val| + 57 / 10 * v := by
    refine r3.trans ?_
    have := mul_le_mul_of_nonneg_left hd h0
    have h' : u * (|x.val| + 3 * w + (u * |x.val| + 3 * v) + 155 / 100 * w)
      = u * |x.val| + 3 * v + u * (u * |x.val|) + 3 * (u * v) + 155 / 100 * v := by rw [hv]; ring
    linarith
  have hty : |t - y| ≤ 155 / 100 * w + (u * |x.val| + 57 / 10 * v) := by
    have : t - y = (s' - (s + y)) + (t - (s' - s)) := by ring
    rw [this]
    have a1 := abs_add_le (s' - (s + y)) (t - (s' - s))
    linarith
  have e4 : |c' - (t - y)| ≤ 28 / 10 * v := by
    refine r4.trans ?_
    have := mul_le_mul_of_nonneg_left hty h0
    have h' : u * (155 / 100 * w + (u * |x.val| + 57 / 10 * v))
      = 155 / 100 * v + u * (u * |x.val|) + 57 / 10 * (u * v) := by rw [hv]; ring
    linarith
  constructor
  · have : c' = (t - y) + (c' - (t - y)) := by ring
    rw [this]
    have a1 := abs_add_le (t - y) (c' - (t - y))
    rw [mul_assoc, ← hw]
    linarith
  · have : s' - c' - (X + x.val)
      = (s - c - X) + (y - (x.val - c)) + (-(t - (s' - s))) + (-(c' - (t - y))) := by ring
    rw [this]
    have a1 := abs_add_le ((s - c - X) + (y - (x.val - c)) + (-(t - (s' - s)))) (-(c' - (t - y)))
    have a2 := abs_add_le ((s - c - X) + (y - (x.val - c))) (-(t - (s' - s)))
    have a3 := abs_add_le (s - c - X) (y - (x.val - c))
    rw [abs_neg] at a1 a2
    have : 12 * u ^ 2 * B = 12 * v := by rw [hv, hw]; ring
    rw [this]
    linarith

/-! ## Signs -/

namespace Fl

theorem add_nonneg {a b : Fl R} (ha : 0 ≤ a) (hb : 0 ≤ b) : 0 ≤ a + b :=
  R.nonneg (_root_.add_nonneg (le_iff.1 ha) (le_iff.1 hb))

theorem mul_nonneg {a b : Fl R} (ha : 0 ≤ a) (hb : 0 ≤ b) : 0 ≤ a * b :=
  R.nonneg (_root_.mul_nonneg (le_iff.1 ha) (le_iff.1 hb))

theorem mul_nonneg_of_nonpos {a b : Fl R} (ha : a ≤ 0) (hb : b ≤ 0) : 0 ≤ a * b :=
  R.nonneg (mul_nonneg_of_nonpos_of_nonpos (le_iff.1 ha) (le_iff.1 hb))

theorem mul_self_nonneg (a : Fl R) : 0 ≤ a * a := R.nonneg (_root_.mul_self_nonneg a.val)

theorem div_nonneg {a b : Fl R} (ha : 0 ≤ a) (hb : 0 ≤ b) : 0 ≤ a / b :=
  R.nonneg (_root_.div_nonneg (le_iff.1 ha) (le_iff.1 hb))

theorem sub_nonneg {a b : Fl R} (h : b ≤ a) : 0 ≤ a - b :=
  R.nonneg (_root_.sub_nonneg.2 (le_iff.1 h))

theorem sub_nonpos {a b : Fl R} (h : a ≤ b) : a - b ≤ 0 :=
  R.nonpos (_root_.sub_nonpos.2 (le_iff.1 h))

theorem sub_self (a : Fl R) : a - a = 0 := by
  apply Fl.ext
  rw [val_sub, _root_.sub_self, R.zero, val_zero]

theorem natCast_nonneg (n : ℕ) : (0 : Fl R) ≤ (n : Fl R) := R.nonneg (Nat.cast_nonneg n)

theorem natCast_sub_one_nonneg {n : ℕ} (h : 1 ≤ n) : (0 : Fl R) ≤ (n : Fl R) - 1 := by
  apply sub_nonneg
  rw [le_iff, val_natCast, val_one]
  have := R.mono (show (1 : K) ≤ n by exact_mod_cast h)
  rwa [R.one] at this

/-- Adding a nonnegative number does not decrease. -/
theorem le_add {a b : Fl R} (ha : 0 ≤ a) : b ≤ a + b := by
  rw [le_iff, val_add]
  conv_lhs => rw [← rd_val b]
  exact R.mono (by have := le_iff.1 ha; rw [val_zero] at this; linarith)

end Fl

theorem Res.bind_eq_val {α β : Type} {x : Res α} {f : α → Res β} {v : β} :
    (x >>= f) = .val v ↔ ∃ a, x = .val a ∧ f a = .val v := by
  cases x with
  | val a => exact ⟨fun h => ⟨a, rfl, h⟩, by rintro ⟨_, h, h'⟩; cases h; exact h'⟩
  | nonfinite => exact ⟨fun h => (by cases h), by rintro ⟨_, h, _⟩; cases h⟩
  | thrown => exact ⟨fun h => (by cases h), by rintro ⟨_, h, _⟩; cases h⟩
  | ub => exact ⟨fun h => (by cases h), by rintro ⟨_, h, _⟩; cases h⟩
  | diverges => exact ⟨fun h => (by cases h), by rintro ⟨_, h, _⟩; cases h⟩

theorem fdiv_nonneg {a b v : Fl R} (ha : 0 ≤ a) (hb : 0 ≤ b) (h : fdiv a b = .val v) : 0 ≤ v := by
  unfold fdiv at h
  split_ifs at h
  cases h
  exact Fl.div_nonneg ha hb

/-- The immediate mean moves towards the sample, and not beyond it: with at least two numbers in the window, the
step `|p - x| / k` is at most `|p - x|` in spite of the roundings. -/
theorem step_le (hu : R.RelErr u) (hu5 : u ≤ 1 / 5) {k : ℕ} (hk : 2 ≤ k) {a b d : Fl R} (h : a ≤ b)
    (hd : fdiv (b - a) (k : Fl R) = .val d) : 0 ≤ d ∧ d.val ≤ b.val - a.val := by
  have h0 := hu.nonneg
  have h' := Fl.le_iff.1 h
  refine ⟨fdiv_nonneg (Fl.sub_nonneg h) (Fl.natCast_nonneg k) hd, ?_⟩
  unfold fdiv at hd
  split_ifs at hd with hk0
  cases hd
  rw [Fl.val_div, Fl.val_sub, Fl.val_natCast]
  have hb : 0 ≤ b.val - a.val := by linarith
  generalize b.val - a.val = y at hb
  have k2 : (2 : K) ≤ k := by exact_mod_cast hk
  have hk' : (1 - u) * 2 ≤ R.rd k := by
    have := abs_le.1 (hu k)
    rw [abs_of_nonneg (by linarith : (0 : K) ≤ k)] at this
    nlinarith
  have hkp : 0 < R.rd (k : K) := lt_of_lt_of_le (by linarith) hk'
  have hy : R.rd y ≤ (1 + u) * y := by
    have := abs_le.1 (hu y)
    rw [abs_of_nonneg hb] at this
    linarith
  have hq : 0 ≤ R.rd y / R.rd k := div_nonneg (R.nonneg hb) hkp.le
  have h1 := (abs_le.1 (hu (R.rd y / R.rd k))).2
  rw [abs_of_nonneg hq] at h1
  have h2 : R.rd y / R.rd k ≤ (1 + u) * y / ((1 - u) * 2) :=
    div_le_div₀ (by positivity) hy (by linarith) hk'
  have h3 : (1 + u) * ((1 + u) * y / ((1 - u) * 2)) ≤ y := by
    rw [← mul_div_assoc, div_le_iff₀ (by linarith)]
    have : (1 + u) * (1 + u) ≤ (1 - u) * 2 := by nlinarith
    have := mul_le_mul_of_nonneg_right this hb
    linarith
  nlinarith

end Acc
