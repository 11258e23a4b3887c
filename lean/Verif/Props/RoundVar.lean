import Verif.Props.RoundWeighted

/-!
# C79: the variance in floating point arithmetic
-/

set_option linter.unusedSectionVars false

namespace Acc

variable {K : Type} [Field K] [LinearOrder K] [IsStrictOrderedRing K] {R : Rounding K} {u : K}

theorem sq_err {t y a d : K} (hd : 0 ≤ d) (hy : |y| ≤ a) (h : |t - y| ≤ d * a) :
    |t * t - y * y| ≤ ((1 + d) ^ 2 - 1) * (a * a) := by
  have ha : 0 ≤ a := (abs_nonneg y).trans hy
  have e : t * t - y * y = (t - y) * (t - y + 2 * y) := by ring
  rw [e, abs_mul]
  have h2 : |t - y + 2 * y| ≤ d * a + 2 * a := by
    refine (abs_add_le _ _).trans (add_le_add h ?_)
    rw [abs_mul, abs_of_pos (by norm_num : (0 : K) < 2)]
    linarith
  refine (mul_le_mul h h2 (abs_nonneg _) (mul_nonneg hd ha)).trans (le_of_eq ?_)
  ring

/-! ## The two-moment formula -/

/-- The error of `moment<2> - mean * mean`: relative to the mean square. -/
theorem lazyVariance_err (hu : R.RelErr u) {m2 m : Fl R} {E2 mu A G1 G2 G : K} (h2 : |m2.val - E2| ≤ (G2 - 1) * E2)
    (h1 : |m.val - mu| ≤ (G1 - 1) * A) (hmu : |mu| ≤ A) (hA : A * A ≤ E2) (hG1 : 1 ≤ G1) (hG2 : G2 ≤ G)
    (hG : (1 + u) * G1 ^ 2 ≤ G) :
    |(m2 - m * m).val - (E2 - mu * mu)| ≤ ((1 + u) * G - 1) * (2 * E2) := by
  have h0 := hu.nonneg
  have hA0 : 0 ≤ A := (abs_nonneg mu).trans hmu
  have hE : 0 ≤ E2 := (mul_self_nonneg A).trans hA
  have hmm : |mu * mu| ≤ A * A := by
    rw [abs_mul]
    exact mul_le_mul hmu hmu (abs_nonneg _) hA0
  have s1 := sq_err (sub_nonneg.2 hG1) hmu h1
  rw [add_sub_cancel] at s1
  have s2 := hu.round hmm s1
  rw [add_sub_cancel] at s2
  have hG1' : 1 ≤ (1 + u) * G1 ^ 2 := by nlinarith [one_le_pow₀ (n := 2) hG1]
  have s3 : |R.rd (m.val * m.val) - mu * mu| ≤ (G - 1) * E2 := by
    refine s2.trans ((mul_le_mul_of_nonneg_left hA (by linarith)).trans ?_)
    exact mul_le_mul_of_nonneg_right (by linarith) hE
  have s4 : |m2.val - E2| ≤ (G - 1) * E2 := h2.trans (mul_le_mul_of_nonneg_right (by linarith) hE)
  have s5 := hu.round (z := m2.val - R.rd (m.val * m.val)) (t := E2 - mu * mu) (d := G - 1) (a := 2 * E2) (by
      refine (abs_sub _ _).trans ?_
      rw [abs_of_nonneg hE]
      linarith) (by
      rw [sub_sub_sub_comm]
      refine (abs_sub _ _).trans ?_
      linarith)
  rw [add_sub_cancel] at s5
  exact s5

/-- The square of the mean absolute value is at most the mean square (Cauchy). -/
theorem mean_sq_le {A : Type} (f w : A → K) (l : List A) (hw : ∀ a ∈ l, 0 ≤ w a) (hW : 0 < (l.map w).sum) :
    ((l.map fun a => |f a * w a|).sum / (l.map w).sum) * ((l.map fun a => |f a * w a|).sum / (l.map w).sum)
      ≤ (l.map fun a => w a * f a ^ 2).sum / (l.map w).sum := by
  have key : ∀ c : K, ∀ l : List A, (∀ a ∈ l, 0 ≤ w a) →
      2 * c * (l.map fun a => |f a * w a|).sum ≤ (l.map fun a => w a * f a ^ 2).sum + c ^ 2 * (l.map w).sum := by
    intro c l hw
    induction l with
    | nil => simp
    | cons a l ih =>
      have h1 := ih fun b hb => hw b (by simp [hb])
      have h2 := hw a (by simp)
      simp only [List.map_cons, List.sum_cons]
      rw [abs_mul, abs_of_nonneg h2]
      have h3 : 0 ≤ w a * (|f a| - c) ^ 2 := mul_nonneg h2 (sq_nonneg _)
      have h4 : |f a| ^ 2 = f a ^ 2 := sq_abs _
      nlinarith
  have h := key ((l.map fun a => |f a * w a|).sum / (l.map w).sum) l hw
  rw [le_div_iff₀ hW]
  obtain ⟨c, hc⟩ : ∃ c, c = (l.map fun a => |f a * w a|).sum / (l.map w).sum := ⟨_, rfl⟩
  have e : (l.map fun a => |f a * w a|).sum = c * (l.map w).sum := by rw [hc]; field_simp
  rw [← hc] at h ⊢
  rw [e] at h
  nlinarith

theorem mean_sq_le' (xs : List (Fl R)) (h : xs ≠ []) :
    ((xs.map fun x => |x.val|).sum / xs.length) * ((xs.map fun x => |x.val|).sum / xs.length)
      ≤ (xs.map fun x => |x.val ^ 2|).sum / (xs.length : K) := by
  have hl : (xs.map fun _ => (1 : K)).sum = xs.length := by simp
  have := mean_sq_le (fun x : Fl R => x.val) (fun _ => (1 : K)) xs (fun _ _ => zero_le_one)
    (by rw [hl]; exact_mod_cast List.length_pos_iff.2 h)
  rw [hl] at this
  simpa [abs_of_nonneg] using this

theorem abs_mean_le (xs : List (Fl R)) :
    |(xs.map Fl.val).sum / (xs.length : K)| ≤ (xs.map fun x => |x.val|).sum / (xs.length : K) := by
  rw [abs_div, abs_of_nonneg (Nat.cast_nonneg (α := K) xs.length)]
  exact div_le_div_of_nonneg_right (abs_sum_le Fl.val xs) (Nat.cast_nonneg _)

/-- **C79** `lazy_variance` with the mean computed as sum by count: the error is small relative to the mean square. -/
theorem C79_lazy (hu : R.RelErr u) (xs : List (Fl R)) (h : xs ≠ []) (hc : R.Counts xs.length) :
    ∃ v : Fl R, lazyVarianceRun (lazyMean 0) 0 xs = .val v ∧
      |v.val - ((xs.map fun x => x.val ^ 2).sum / xs.length - ((xs.map Fl.val).sum / xs.length) ^ 2)|
        ≤ 2 * ((1 + u) ^ (2 * xs.length + 4) - 1) * ((xs.map fun x => x.val ^ 2).sum / xs.length) := by
  have h0 := hu.nonneg
  obtain ⟨m, em, hm⟩ := C60_lazy_mean hu xs h hc
  obtain ⟨m2, e2, h2⟩ := C60_moment hu (N := 2) (by norm_num) xs h hc
  refine ⟨m2 - m * m, by rw [lazyVarianceRun, e2, em]; rfl, ?_⟩
  have hms := mean_sq_le' xs h
  have hab : ∀ x : K, |x ^ 2| = x ^ 2 := fun x => abs_of_nonneg (sq_nonneg x)
  simp only [hab] at h2 hms
  have := lazyVariance_err hu h2 hm (abs_mean_le xs) hms (one_le_pow₀ (by linarith))
    (G := (1 + u) ^ (2 * xs.length + 3)) (pow_le_pow_right₀ (by linarith) (by omega))
    (le_of_eq (by rw [← pow_mul, ← pow_succ']; congr 1; ring))
  rw [← pow_succ'] at this
  rw [pow_two ((xs.map Fl.val).sum / _)]
  refine this.trans (le_of_eq ?_)
  ring

/-- **C79** `lazy_variance` with the recursively updated mean. -/
theorem C79_lazy_immediate (hu : R.RelErr u) (xs : List (Fl R)) (h : xs ≠ []) (hc : R.Counts xs.length) :
    ∃ v : Fl R, lazyVarianceRun (immMean 0) 0 xs = .val v ∧
      |v.val - ((xs.map fun x => x.val ^ 2).sum / xs.length - ((xs.map Fl.val).sum / xs.length) ^ 2)|
        ≤ 2 * ((1 + u) ^ (6 * xs.length + 2) - 1) * ((xs.map fun x => x.val ^ 2).sum / xs.length) := by
  have h0 := hu.nonneg
  have hl := List.length_pos_iff.2 h
  obtain ⟨m, em, hm⟩ := C60_immediate_mean hu 0 xs h hc
  obtain ⟨m2, e2, h2⟩ := C60_moment hu (N := 2) (by norm_num) xs h hc
  refine ⟨m2 - m * m, by rw [lazyVarianceRun, e2, em]; rfl, ?_⟩
  have hms := mean_sq_le' xs h
  have hab : ∀ x : K, |x ^ 2| = x ^ 2 := fun x => abs_of_nonneg (sq_nonneg x)
  simp only [hab] at h2 hms
  have := lazyVariance_err hu h2 hm (abs_mean_le xs) hms (one_le_pow₀ (by linarith))
    (G := (1 + u) ^ (6 * xs.length + 1)) (pow_le_pow_right₀ (by linarith) (by omega))
    (le_of_eq (by rw [← pow_mul, ← pow_succ']; congr 1; ring))
  rw [← pow_succ'] at this
  rw [pow_two ((xs.map Fl.val).sum / _)]
  refine this.trans (le_of_eq ?_)
  ring

/-- **C79** `lazy_weighted_variance`. -/
theorem C79_lazy_weighted (hu : R.RelErr u) (hu1 : u < 1) (ps : List (Fl R × Fl R)) (hw : ∀ p ∈ ps, 0 ≤ p.2.val)
    (hW : 0 < (ps.map fun p => p.2.val).sum) :
    ∃ v : Fl R, lazyWeightedVarianceRun (lazyWMean 0) ps = .val v ∧
      |v.val - ((ps.map fun p => p.2.val * p.1.val ^ 2).sum / (ps.map fun p => p.2.val).sum -
          ((ps.map fun p => p.1.val * p.2.val).sum / (ps.map fun p => p.2.val).sum) ^ 2)|
        ≤ 2 * ((1 + u) ^ (2 * ps.length + 6) / (1 - u) ^ (2 * ps.length) - 1) *
          ((ps.map fun p => p.2.val * p.1.val ^ 2).sum / (ps.map fun p => p.2.val).sum) := by
  have h0 := hu.nonneg
  obtain ⟨m, em, hm⟩ := C78_lazy_mean hu hu1 ps hw hW
  obtain ⟨m2, e2, h2⟩ := C78_moment hu hu1 (N := 2) (by norm_num) ps hw hW
  refine ⟨m2 - m * m, by rw [lazyWeightedVarianceRun, e2, em]; rfl, ?_⟩
  have hms := mean_sq_le (fun p : Fl R × Fl R => p.1.val) (fun p => p.2.val) ps hw hW
  have hab : (ps.map fun p => |p.2.val * p.1.val ^ 2|) = ps.map fun p => p.2.val * p.1.val ^ 2 :=
    List.map_congr_left fun p hp => abs_of_nonneg (mul_nonneg (hw p hp) (sq_nonneg _))
  rw [hab] at h2
  have hp0 : 0 < (1 - u) ^ ps.length := pow_pos (by linarith) _
  have hp1 : (1 - u) ^ ps.length ≤ 1 := pow_le_one₀ (by linarith) (by linarith)
  have hE1 : ∀ k, 1 ≤ (1 + u) ^ k := fun k => one_le_pow₀ (by linarith)
  have hmu : |(ps.map fun p => p.1.val * p.2.val).sum / (ps.map fun p => p.2.val).sum|
      ≤ (ps.map fun p => |p.1.val * p.2.val|).sum / (ps.map fun p => p.2.val).sum := by
    rw [abs_div, abs_of_pos hW]
    exact div_le_div_of_nonneg_right (abs_sum_le (fun p : Fl R × Fl R => p.1.val * p.2.val) ps) hW.le
  have := lazyVariance_err hu h2 hm hmu hms
    (by rw [le_div_iff₀ hp0]; have := hE1 (ps.length + 2); linarith)
    (G := (1 + u) ^ (2 * ps.length + 5) / (1 - u) ^ (2 * ps.length)) (by
      have e : (1 - u) ^ (2 * ps.length) ≤ (1 - u) ^ ps.length := by
        rw [two_mul, pow_add]; nlinarith
      refine div_le_div₀ (by have := hE1 (2 * ps.length + 5); linarith)
        (pow_le_pow_right₀ (by linarith) (by omega)) (pow_pos (by linarith) _) e)
    (le_of_eq (by
      rw [div_pow, ← pow_mul, ← pow_mul, mul_comm ps.length 2, ← mul_div_assoc, ← pow_succ']
      congr 2; ring))
  rw [← mul_div_assoc (1 + u), ← pow_succ'] at this
  rw [pow_two ((ps.map fun p => p.1.val * p.2.val).sum / _)]
  refine this.trans (le_of_eq ?_)
  ring

/-! ## The recursion -/

/-- One update of `variance`, compared with the exact update reading the same mean. -/
theorem variance_step_err (hu : R.RelErr u) {k : ℕ} (hk : 0 < k) (hck : R.rd (k : K) = k)
    (hcn : R.rd ((k + 1 : ℕ) : K) = (k + 1 : ℕ)) {m v x : Fl R} (hv : 0 ≤ v.val) :
    ∃ v' : Fl R, varianceStep (k + 1) (.val m) (.val v) x = .val v' ∧ 0 ≤ v'.val ∧
      |v'.val - (v.val * k / (k + 1 : ℕ) + (x.val - m.val) * (x.val - m.val) / k)|
        ≤ ((1 + u) ^ 5 - 1) * (v.val * k / (k + 1 : ℕ) + (x.val - m.val) * (x.val - m.val) / k) := by
  have h0 := hu.nonneg
  have hk0 : (0 : K) < k := by exact_mod_cast hk
  have hn0 : (0 : K) < (k + 1 : ℕ) := by exact_mod_cast Nat.succ_pos k
  have hcast : (((k + 1 : ℕ) : Fl R) - 1).val = (k : K) := by
    rw [Fl.val_sub, Fl.val_natCast, hcn, Fl.val_one]
    push_cast
    rw [add_sub_cancel_right, hck]
  have hcn' : (((k + 1 : ℕ) : Fl R)).val = ((k + 1 : ℕ) : K) := by rw [Fl.val_natCast, hcn]
  have hne : ((k + 1 : ℕ) : Fl R) ≠ 0 := fun e => by
    rw [Fl.eq_zero_iff, hcn'] at e; exact hn0.ne' e
  have hne1 : ((k + 1 : ℕ) : Fl R) - 1 ≠ 0 := fun e => by
    rw [Fl.eq_zero_iff, hcast] at e; exact hk0.ne' e
  obtain ⟨y, hy⟩ : ∃ y, y = x.val - m.val := ⟨_, rfl⟩
  rw [← hy]
  have hyy : 0 ≤ y * y := mul_self_nonneg y
  -- the first summand
  have a1 : |R.rd (v.val * k) - v.val * k| ≤ ((1 + u) * 1 - 1) * (v.val * k) := by
    have := hu (v.val * k)
    rw [abs_of_nonneg (mul_nonneg hv hk0.le)] at this
    linarith
  have a2 := hu.round (z := R.rd (v.val * k) / (k + 1 : ℕ)) (t := v.val * k / (k + 1 : ℕ))
    (a := v.val * k / (k + 1 : ℕ)) (d := u) (by rw [abs_of_nonneg (by positivity)]) (by
      rw [← sub_div, abs_div, abs_of_pos hn0, ← mul_div_assoc]
      refine div_le_div_of_nonneg_right (a1.trans (le_of_eq ?_)) hn0.le
      ring)
  -- the second
  have b1 := sq_err (t := (x - m).val) (y := y) (a := |y|) h0 le_rfl (by rw [Fl.val_sub, ← hy]; exact hu y)
  rw [abs_mul_abs_self] at b1
  have b2 := hu.round (z := (x - m).val * (x - m).val) (t := y * y) (a := y * y) (d := (1 + u) ^ 2 - 1)
    (by rw [abs_of_nonneg hyy]) b1
  have b3 := hu.round (z := R.rd ((x - m).val * (x - m).val) / k) (t := y * y / k) (a := y * y / k)
    (d := (1 + u) ^ 3 - 1) (by rw [abs_of_nonneg (div_nonneg hyy hk0.le)]) (by
      rw [← sub_div, abs_div, abs_of_pos hk0, ← mul_div_assoc]
      refine div_le_div_of_nonneg_right (b2.trans (le_of_eq ?_)) hk0.le
      ring)
  have ha : 0 ≤ v.val * k / (k + 1 : ℕ) := by positivity
  have hb : 0 ≤ y * y / k := div_nonneg hyy hk0.le
  have c := hu.round (z := R.rd (R.rd (v.val * k) / (k + 1 : ℕ)) + R.rd (R.rd ((x - m).val * (x - m).val) / k))
    (t := v.val * k / (k + 1 : ℕ) + y * y / k) (a := v.val * k / (k + 1 : ℕ) + y * y / k) (d := (1 + u) ^ 4 - 1)
    (by rw [abs_of_nonneg (add_nonneg ha hb)]) (by
      rw [add_sub_add_comm, mul_add]
      refine (abs_add_le _ _).trans (add_le_add (a2.trans ?_) (b3.trans (le_of_eq ?_)))
      · refine mul_le_mul_of_nonneg_right ?_ ha
        have : (1 + u) * (1 + u) ≤ (1 + u) ^ 4 := by
          rw [← pow_two]; exact pow_le_pow_right₀ (by linarith) (by norm_num)
        linarith
      · ring)
  refine ⟨v * (((k + 1 : ℕ) : Fl R) - 1) / ((k + 1 : ℕ) : Fl R) + (x - m) * (x - m) / (((k + 1 : ℕ) : Fl R) - 1), ?_, ?_, ?_⟩
  · simp only [varianceStep, Res.val_bind, fdiv, if_neg hne, if_neg hne1]
    rw [if_pos (by omega)]
    rfl
  · refine Fl.le_iff.1 (Fl.add_nonneg (Fl.div_nonneg (Fl.mul_nonneg (Fl.le_iff.2 hv) ?_) ?_)
      (Fl.div_nonneg (Fl.mul_self_nonneg _) ?_))
    · rw [Fl.le_iff, hcast]; exact hk0.le
    · rw [Fl.le_iff, hcn']; exact hn0.le
    · rw [Fl.le_iff, hcast]; exact hk0.le
  · have e : (v * (((k + 1 : ℕ) : Fl R) - 1) / ((k + 1 : ℕ) : Fl R) + (x - m) * (x - m) / (((k + 1 : ℕ) : Fl R) - 1)).val
        = R.rd (R.rd (R.rd (v.val * k) / (k + 1 : ℕ)) + R.rd (R.rd ((x - m).val * (x - m).val) / k)) := by
      rw [Fl.val_add, Fl.val_div, Fl.val_div, Fl.val_mul, Fl.val_mul, hcast, hcn']
    rw [e]
    refine c.trans (le_of_eq ?_)
    ring

/-- `n` times the variance: the sum of the squares minus `n` times the square of the mean. -/
def nvar (xs : List K) : K := (xs.map fun x => x ^ 2).sum - xs.sum ^ 2 / xs.length

theorem nvar_step (l : List K) (x : K) (hl : l ≠ []) :
    nvar (l ++ [x]) = nvar l + ((l.length + 1 : ℕ) : K) / l.length *
      ((x - (l ++ [x]).sum / (l.length + 1 : ℕ)) * (x - (l ++ [x]).sum / (l.length + 1 : ℕ))) := by
  have hk : (l.length : K) ≠ 0 := by exact_mod_cast (List.length_pos_iff.2 hl).ne'
  have hn : ((l.length + 1 : ℕ) : K) ≠ 0 := by exact_mod_cast Nat.succ_ne_zero l.length
  simp only [nvar, List.map_append, List.sum_append, List.map_cons, List.map_nil, List.sum_cons, List.sum_nil, add_zero,
    List.length_append, List.length_cons, List.length_nil, zero_add]
  push_cast at hn ⊢
  field_simp
  ring

theorem nvar_le {M : K} (l : List K) (hM : ∀ x ∈ l, |x| ≤ M) : nvar l ≤ l.length * M ^ 2 := by
  have h1 : (l.map fun x => x ^ 2).sum ≤ l.length * M ^ 2 := by
    induction l with
    | nil => simp
    | cons x l ih =>
      have := ih fun y hy => hM y (by simp [hy])
      have h2 : x ^ 2 ≤ M ^ 2 := sq_le_sq.2 ((hM x (by simp)).trans (le_abs_self M))
      simp only [List.map_cons, List.sum_cons, List.length_cons]
      push_cast
      linarith
  have h2 : 0 ≤ l.sum ^ 2 / (l.length : K) := by positivity
  unfold nvar
  linarith

theorem nvar_nonneg (l : List K) : 0 ≤ nvar l := by
  induction l using List.reverseRecOn with
  | nil => simp [nvar]
  | append_singleton l x ih =>
    by_cases hl : l = []
    · subst hl; simp [nvar]
    · rw [nvar_step l x hl]
      have := mul_self_nonneg (x - (l ++ [x]).sum / ((l.length + 1 : ℕ) : K))
      positivity

theorem abs_sum_le_of {M : K} (l : List K) (hM : ∀ x ∈ l, |x| ≤ M) : |l.sum| ≤ l.length * M := by
  induction l with
  | nil => simp
  | cons x l ih =>
    rw [List.sum_cons, List.length_cons]
    have := ih fun y hy => hM y (by simp [hy])
    have h := hM x (by simp)
    refine (abs_add_le _ _).trans ?_
    push_cast
    linarith

/-- **C79** `variance` over any mean that is never further than `(1 + u)ᶜ - 1` times the largest sample from the exact
one: the error is at most `(1 + u)⁵ⁿ⁺⁸ᶜ - 1` times the square of the largest sample. -/
theorem C79_immediate_over (hu : R.RelErr u) (P : MeanProvider (Fl R) (Fl R)) {M : K} {c : ℕ} (xs : List (Fl R))
    (h : xs ≠ []) (hc : R.Counts xs.length) (hM : ∀ x ∈ xs, |x.val| ≤ M)
    (hP : ∀ l, l <+: xs → l ≠ [] → ∃ m, P.read (P.run l) = .val m ∧
      |m.val - (l.map Fl.val).sum / l.length| ≤ ((1 + u) ^ c - 1) * M) :
    ∃ v : Fl R, varianceRun P 0 xs = .val v ∧
      |v.val - ((xs.map fun x => x.val ^ 2).sum / xs.length - ((xs.map Fl.val).sum / xs.length) ^ 2)|
        ≤ ((1 + u) ^ (5 * xs.length + 8 * c) - 1) * M ^ 2 := by
  have h0 := hu.nonneg
  have hM0 : 0 ≤ M := by
    obtain ⟨p, hp⟩ := List.exists_mem_of_ne_nil _ h
    exact (abs_nonneg _).trans (hM p hp)
  have one_ne : (1 : Fl R) ≠ 0 := by
    intro e
    rw [Fl.eq_zero_iff] at e
    exact one_ne_zero e
  obtain ⟨g, hg⟩ : ∃ g, g = (1 + u) ^ 5 := ⟨_, rfl⟩
  have hg1 : 1 ≤ g := hg ▸ one_le_pow₀ (by linarith)
  obtain ⟨d, hd⟩ : ∃ d, d = (1 + u) ^ c - 1 := ⟨_, rfl⟩
  have hd0 : 0 ≤ d := hd ▸ pow_rel h0 c
  obtain ⟨D, hD⟩ : ∃ D, D = 8 * d + 2 * d ^ 2 := ⟨_, rfl⟩
  have hD0 : 0 ≤ D := by rw [hD]; positivity
  have key : ∀ l, l <+: xs → (l.foldl (VarianceSt.push P) (VarianceSt.init P 0)).cnt = l.length ∧
      (l.foldl (VarianceSt.push P) (VarianceSt.init P 0)).m = P.run l ∧
      ∃ v : Fl R, (l.foldl (VarianceSt.push P) (VarianceSt.init P 0)).var = .val v ∧ 0 ≤ v.val ∧
        |l.length * v.val - nvar (l.map Fl.val)| ≤ (g ^ l.length * (1 + D) - 1) * (l.length * M ^ 2) := by
    intro l
    induction l using List.reverseRecOn with
    | nil =>
      refine fun _ => ⟨rfl, rfl, 0 / 1, by simp [VarianceSt.init, fdiv, one_ne], ?_, by simp [nvar]⟩
      rw [Fl.val_div, Fl.val_zero, zero_div, R.zero]
    | append_singleton l x ih =>
      intro hpre
      have hpl : l <+: xs := (List.prefix_append l [x]).trans hpre
      obtain ⟨ic, im, v, iv, iv0, ie⟩ := ih hpl
      have hlen : l.length + 1 ≤ xs.length := by simpa using hpre.length_le
      have hMl : ∀ y ∈ (l ++ [x]).map Fl.val, |y| ≤ M := by
        intro y hy
        obtain ⟨z, hz, rfl⟩ := List.mem_map.1 hy
        exact hM z (hpre.subset hz)
      obtain ⟨m, em, hm⟩ := hP (l ++ [x]) hpre (by simp)
      have erun : P.push (P.run l) x = P.run (l ++ [x]) := by simp [MeanProvider.run, List.foldl_append]
      have hx : |x.val| ≤ M := hM x (hpre.subset (by simp))
      rw [List.foldl_append, List.foldl_cons, List.foldl_nil]
      simp only [VarianceSt.push, ic, im, iv, erun, em]
      refine ⟨by simp, trivial, ?_⟩
      by_cases hl : l = []
      · subst hl
        refine ⟨v, by simp [varianceStep], iv0, ?_⟩
        have hv0 : v.val = 0 := by
          simp [VarianceSt.init, fdiv, one_ne] at iv
          rw [← iv, Fl.val_div, Fl.val_zero, zero_div, R.zero]
        simp only [List.nil_append, List.length_singleton, hv0, mul_zero, nvar, List.map_cons, List.map_nil,
          List.sum_cons, List.sum_nil, add_zero, Nat.cast_one, div_one, sub_self, abs_zero, pow_one, one_mul]
        have : 0 ≤ g * (1 + D) - 1 := by nlinarith
        exact mul_nonneg this (sq_nonneg M)
      · have hk := List.length_pos_iff.2 hl
        obtain ⟨v', e', v0', r⟩ := variance_step_err hu (m := m) (x := x) hk (hc _ (by omega))
          (hc _ hlen) iv0
        refine ⟨v', e', v0', ?_⟩
        have hk0 : (0 : K) < l.length := by exact_mod_cast hk
        have hn0 : (0 : K) < (l.length + 1 : ℕ) := by exact_mod_cast Nat.succ_pos _
        obtain ⟨n, hn⟩ : ∃ n : K, n = (l.length + 1 : ℕ) := ⟨_, rfl⟩
        obtain ⟨k, hkd⟩ : ∃ k : K, k = l.length := ⟨_, rfl⟩
        have hnk : n = k + 1 := by rw [hn, hkd]; push_cast; ring
        have hk1 : 1 ≤ k := by rw [hkd]; exact_mod_cast hk
        have ell : (l ++ [x]).length = l.length + 1 := by simp
        rw [ell] at hm ⊢
        have estep := nvar_step (l.map Fl.val) x.val (by simpa using hl)
        rw [List.length_map] at estep
        have emap : l.map Fl.val ++ [x.val] = (l ++ [x]).map Fl.val := by simp
        rw [emap] at estep
        have hQle := nvar_le ((l ++ [x]).map Fl.val) hMl
        have hQ0 := nvar_nonneg ((l ++ [x]).map Fl.val)
        rw [List.length_map, ell] at hQle
        have hsum := abs_sum_le_of ((l ++ [x]).map Fl.val) hMl
        rw [List.length_map, ell] at hsum
        rw [← hn, ← hkd] at estep r
        rw [← hn] at hQle hsum hm
        rw [← hkd] at ie
        rw [← hn]
        rw [← hkd] at hk0
        rw [← hn] at hn0
        obtain ⟨mu, hmu⟩ : ∃ mu, mu = ((l ++ [x]).map Fl.val).sum / n := ⟨_, rfl⟩
        rw [← hmu] at estep hm
        rw [← hd] at hm
        have hmuM : |mu| ≤ M := by
          rw [hmu, abs_div, abs_of_pos hn0, div_le_iff₀ hn0]
          linarith
        -- the exact update reading the computed mean
        have hy : |(x.val - m.val) * (x.val - m.val) - (x.val - mu) * (x.val - mu)| ≤ d * M * (4 * M + d * M) := by
          have e : (x.val - m.val) * (x.val - m.val) - (x.val - mu) * (x.val - mu)
              = -((m.val - mu) * (2 * (x.val - mu) + -(m.val - mu))) := by ring
          rw [e, abs_neg, abs_mul]
          refine mul_le_mul hm ((abs_add_le _ _).trans (add_le_add ?_ (by rw [abs_neg]; exact hm))) (abs_nonneg _)
            (mul_nonneg hd0 hM0)
          rw [abs_mul, abs_of_pos (by norm_num : (0 : K) < 2)]
          have := abs_sub x.val mu
          linarith
        obtain ⟨Y, hY⟩ : ∃ Y, Y = v.val * k / n + (x.val - m.val) * (x.val - m.val) / k := ⟨_, rfl⟩
        rw [← hY] at r
        have hnY : |n * Y - nvar ((l ++ [x]).map Fl.val)| ≤ (g ^ l.length * (1 + D) - 1) * (k * M ^ 2) + D * M ^ 2 := by
          have e : n * Y - nvar ((l ++ [x]).map Fl.val) = (k * v.val - nvar (l.map Fl.val)) +
              n / k * ((x.val - m.val) * (x.val - m.val) - (x.val - mu) * (x.val - mu)) := by
            rw [estep, hY]; field_simp; ring
          rw [e]
          refine (abs_add_le _ _).trans (add_le_add ie ?_)
          rw [abs_mul, abs_of_pos (div_pos hn0 hk0)]
          have hn2 : n / k ≤ 2 := by rw [div_le_iff₀ hk0]; linarith
          refine (mul_le_mul hn2 hy (abs_nonneg _) (by norm_num)).trans (le_of_eq ?_)
          rw [hD]; ring
        have hM2 : 0 ≤ M ^ 2 := sq_nonneg M
        obtain ⟨Q, hQ⟩ : ∃ Q, Q = nvar ((l ++ [x]).map Fl.val) := ⟨_, rfl⟩
        rw [← hQ] at hnY hQle hQ0 ⊢
        obtain ⟨G, hG⟩ : ∃ G, G = g ^ l.length := ⟨_, rfl⟩
        rw [← hG] at hnY
        have hG1 : 1 ≤ G := hG ▸ one_le_pow₀ hg1
        rw [pow_succ, ← hG]
        have hr : |n * v'.val - n * Y| ≤ (g - 1) * (n * Y) := by
          rw [← mul_sub, abs_mul, abs_of_pos hn0, hg]
          have := mul_le_mul_of_nonneg_left r hn0.le
          linarith
        have hnYle : n * Y ≤ Q + ((G * (1 + D) - 1) * (k * M ^ 2) + D * M ^ 2) := by
          have := (abs_le.1 hnY).2
          linarith
        have hmul := mul_le_mul_of_nonneg_left hnYle (sub_nonneg.2 hg1)
        have hmulQ := mul_le_mul_of_nonneg_left hQle (sub_nonneg.2 hg1)
        rw [← sub_add_sub_cancel _ (n * Y)]
        refine (abs_add_le _ _).trans ((add_le_add (hr.trans hmul) hnY).trans ?_)
        have hfin : (G * g * (1 + D) - 1) * (n * M ^ 2) = (g - 1) * (n * M ^ 2) +
            g * ((G * (1 + D) - 1) * (k * M ^ 2) + D * M ^ 2) + g * (G - 1) * (1 + D) * M ^ 2 := by
          rw [hnk]; ring
        have hs2 : 0 ≤ g * (G - 1) * (1 + D) * M ^ 2 :=
          mul_nonneg (mul_nonneg (mul_nonneg (by linarith) (by linarith)) (by linarith)) hM2
        rw [hfin]
        linarith
  obtain ⟨-, -, v, ev, -, he⟩ := key xs List.prefix_rfl
  refine ⟨v, ev, ?_⟩
  have hn0 : (0 : K) < xs.length := by exact_mod_cast List.length_pos_iff.2 h
  have e : v.val - ((xs.map fun x => x.val ^ 2).sum / xs.length - ((xs.map Fl.val).sum / xs.length) ^ 2)
      = (xs.length * v.val - nvar (xs.map Fl.val)) / xs.length := by
    simp only [nvar, List.map_map, Function.comp_def, List.length_map]
    field_simp
  rw [e, abs_div, abs_of_pos hn0, div_le_iff₀ hn0]
  refine he.trans ?_
  have hE : g ^ xs.length * (1 + D) ≤ (1 + u) ^ (5 * xs.length + 8 * c) := by
    rw [pow_add, pow_mul, ← hg]
    refine mul_le_mul_of_nonneg_left ?_ (by positivity)
    rw [mul_comm 8 c, pow_mul]
    have : (1 + u) ^ c = 1 + d := by rw [hd]; ring
    rw [this, hD]
    have : (1 + d) ^ 8 = 1 + 8 * d + 28 * d ^ 2 + (56 * d ^ 3 + 70 * d ^ 4 + 56 * d ^ 5 + 28 * d ^ 6 + 8 * d ^ 7 + d ^ 8) := by
      ring
    rw [this]
    have : 0 ≤ 56 * d ^ 3 + 70 * d ^ 4 + 56 * d ^ 5 + 28 * d ^ 6 + 8 * d ^ 7 + d ^ 8 := by positivity
    nlinarith [sq_nonneg d]
  have : 0 ≤ (xs.length : K) * M ^ 2 := by positivity
  nlinarith

/-- The mean absolute value is at most the largest. -/
theorem mean_abs_le {M : K} (l : List (Fl R)) (hl : l ≠ []) (hM : ∀ x ∈ l, |x.val| ≤ M) :
    (l.map fun x => |x.val|).sum / (l.length : K) ≤ M := by
  have hn0 : (0 : K) < l.length := by exact_mod_cast List.length_pos_iff.2 hl
  rw [div_le_iff₀ hn0]
  have := abs_sum_le_of (M := M) (l.map fun x => |x.val|) (by
    intro y hy
    obtain ⟨z, hz, rfl⟩ := List.mem_map.1 hy
    rw [abs_abs]
    exact hM z hz)
  rw [List.length_map] at this
  linarith [le_abs_self (l.map fun x => |x.val|).sum]

/-- **C79** `variance` with the recursively updated mean. -/
theorem C79_immediate (hu : R.RelErr u) {M : K} (xs : List (Fl R)) (h : xs ≠ []) (hc : R.Counts xs.length)
    (hM : ∀ x ∈ xs, |x.val| ≤ M) :
    ∃ v : Fl R, varianceRun (immMean 0) 0 xs = .val v ∧
      |v.val - ((xs.map fun x => x.val ^ 2).sum / xs.length - ((xs.map Fl.val).sum / xs.length) ^ 2)|
        ≤ ((1 + u) ^ (29 * xs.length) - 1) * M ^ 2 := by
  have h0 := hu.nonneg
  obtain ⟨v, e, hv⟩ := C79_immediate_over hu (immMean 0) (c := 3 * xs.length) xs h hc hM (fun l hl hne => by
    obtain ⟨m, em, hm⟩ := C60_immediate_mean hu 0 l hne fun k hk => hc k (hk.trans hl.length_le)
    refine ⟨m, em, hm.trans ?_⟩
    have hp : (1 + u) ^ (3 * l.length) ≤ (1 + u) ^ (3 * xs.length) :=
      pow_le_pow_right₀ (by linarith) (by have := hl.length_le; omega)
    have h1 := pow_rel h0 (3 * l.length)
    refine mul_le_mul (by linarith) (mean_abs_le l hne fun x hx => hM x (hl.subset hx)) ?_ (by linarith)
    exact div_nonneg (absSum_nonneg Fl.val l) (Nat.cast_nonneg _))
  refine ⟨v, e, hv.trans (le_of_eq ?_)⟩
  congr 3
  ring

/-- **C79** `variance` with the mean computed as sum by count. -/
theorem C79_immediate_lazy (hu : R.RelErr u) {M : K} (xs : List (Fl R)) (h : xs ≠ []) (hc : R.Counts xs.length)
    (hM : ∀ x ∈ xs, |x.val| ≤ M) :
    ∃ v : Fl R, varianceRun (lazyMean 0) 0 xs = .val v ∧
      |v.val - ((xs.map fun x => x.val ^ 2).sum / xs.length - ((xs.map Fl.val).sum / xs.length) ^ 2)|
        ≤ ((1 + u) ^ (13 * xs.length + 8) - 1) * M ^ 2 := by
  have h0 := hu.nonneg
  obtain ⟨v, e, hv⟩ := C79_immediate_over hu (lazyMean 0) (c := xs.length + 1) xs h hc hM (fun l hl hne => by
    obtain ⟨m, em, hm⟩ := C60_lazy_mean hu l hne fun k hk => hc k (hk.trans hl.length_le)
    refine ⟨m, em, hm.trans ?_⟩
    have hp : (1 + u) ^ (l.length + 1) ≤ (1 + u) ^ (xs.length + 1) :=
      pow_le_pow_right₀ (by linarith) (by have := hl.length_le; omega)
    have h1 := pow_rel h0 (l.length + 1)
    refine mul_le_mul (by linarith) (mean_abs_le l hne fun x hx => hM x (hl.subset hx)) ?_ (by linarith)
    exact div_nonneg (absSum_nonneg Fl.val l) (Nat.cast_nonneg _))
  refine ⟨v, e, hv.trans (le_of_eq ?_)⟩
  congr 3
  ring

/-- **C79, cancellation**: relative to the variance itself nothing is guaranteed for the two-moment formula.  Of the
`double`s `10⁸` and `10⁸ + 1`, whose variance is 1/4, `lazy_variance` is 0, `variance` is exact. -/
theorem C79_cancellation_fails :
    let xs : List (Fl double) := [Fl.ofK double (10 ^ 8), Fl.ofK double (10 ^ 8 + 1)]
    Fl.val <$> lazyVarianceRun (lazyMean 0) 0 xs = .val 0 ∧
    Fl.val <$> varianceRun (lazyMean 0) 0 xs = .val (1 / 4) ∧
    Fl.val <$> varianceRun (immMean 0) 0 xs = .val (1 / 4) ∧
    (xs.map fun x => x.val ^ 2).sum / xs.length - ((xs.map Fl.val).sum / xs.length) ^ 2 = 1 / 4 := by
  have h2 : ∀ x : Fl double, mpow x 2 = x * x := by
    intro x
    rw [mpow, mpow]
    simp
  simp only [lazyVarianceRun, momentRun, List.foldl_cons, List.foldl_nil, MomentSt.push, h2]
  decide +kernel

/-! ## The hypotheses can be met -/

example := C79_lazy double_relErr [Fl.ofK double (1 / 10), 1] (by simp) (double_counts (by simp))

example := C79_lazy_immediate double_relErr [Fl.ofK double (1 / 10), 1] (by simp) (double_counts (by simp))

example := C79_lazy_weighted double_relErr (by norm_num) roundPairs (by decide +kernel) (by decide +kernel)

example := C79_immediate double_relErr (M := 1) [Fl.ofK double (1 / 10), 1, Fl.ofK double (1 / 3)] (by simp)
  (double_counts (by simp)) (by decide +kernel)

example := C79_immediate_lazy double_relErr (M := 1) [Fl.ofK double (1 / 10), 1, Fl.ofK double (1 / 3)] (by simp)
  (double_counts (by simp)) (by decide +kernel)

end Acc
