import Verif.Props.RoundVar

/-!
# C93: the covariance in floating point arithmetic
-/

set_option linter.unusedSectionVars false

namespace Acc

variable {K : Type} [Field K] [LinearOrder K] [IsStrictOrderedRing K] {R : Rounding K} {u : K}

/-- The error of a product. -/
theorem prod_err {s t y z a b d e : K} (hd : 0 ≤ d) (hy : |y| ≤ a) (hz : |z| ≤ b) (h1 : |s - y| ≤ d * a)
    (h2 : |t - z| ≤ e * b) : |s * t - y * z| ≤ ((1 + d) * (1 + e) - 1) * (a * b) := by
  have ha : 0 ≤ a := (abs_nonneg y).trans hy
  have hb : 0 ≤ b := (abs_nonneg z).trans hz
  have eq : s * t - y * z = (s - y) * (t - z) + (s - y) * z + y * (t - z) := by ring
  rw [eq]
  have i1 : |(s - y) * (t - z)| ≤ d * a * (e * b) := by
    rw [abs_mul]; exact mul_le_mul h1 h2 (abs_nonneg _) (mul_nonneg hd ha)
  have i2 : |(s - y) * z| ≤ d * a * b := by
    rw [abs_mul]; exact mul_le_mul h1 hz (abs_nonneg _) (mul_nonneg hd ha)
  have i3 : |y * (t - z)| ≤ a * (e * b) := by
    rw [abs_mul]; exact mul_le_mul hy h2 (abs_nonneg _) ha
  refine (abs_add_le _ _).trans ((add_le_add ((abs_add_le _ _).trans (add_le_add i1 i2)) i3).trans (le_of_eq ?_))
  ring

/-- One update of `covariance`, compared with the exact update reading the same means. -/
theorem covariance_step_err (hu : R.RelErr u) {k : ℕ} (hk : 0 < k) (hck : R.rd (k : K) = k)
    (hcn : R.rd ((k + 1 : ℕ) : K) = (k + 1 : ℕ)) (mx my c x y : Fl R) :
    ∃ c' : Fl R, covarianceStep (k + 1) (.val mx) (.val my) (.val c) x y = .val c' ∧
      |c'.val - (c.val * k / (k + 1 : ℕ) + (my.val - y.val) * (mx.val - x.val) / k)|
        ≤ ((1 + u) ^ 5 - 1) * (|c.val| * k / (k + 1 : ℕ) + |my.val - y.val| * |mx.val - x.val| / k) := by
  have h0 := hu.nonneg
  have hk0 : (0 : K) < k := by exact_mod_cast hk
  have hn0 : (0 : K) < (k + 1 : ℕ) := by exact_mod_cast Nat.succ_pos k
  have hcast : (((k + 1 : ℕ) : Fl R) - 1).val = (k : K) := by
    rw [Fl.val_sub, Fl.val_natCast, hcn, Fl.val_one]
    push_cast
    rw [add_sub_cancel_right, hck]
  have hcn' : (((k + 1 : ℕ) : Fl R)).val = ((k + 1 : ℕ) : K) := by rw [Fl.val_natCast, hcn]
  have hne : ((k + 1 : ℕ) : Fl R) ≠ 0 := fun e => by
    rw [Fl.eq_zero_iff, hcn'] at e; exact hn0.ne' e
  have hne1 : ((k + 1 : ℕ) : Fl R) - 1 ≠ 0 := fun e => by
    rw [Fl.eq_zero_iff, hcast] at e; exact hk0.ne' e
  obtain ⟨p, hp⟩ : ∃ p, p = my.val - y.val := ⟨_, rfl⟩
  obtain ⟨q, hq⟩ : ∃ q, q = mx.val - x.val := ⟨_, rfl⟩
  rw [← hp, ← hq]
  have ea : |c.val * k / (k + 1 : ℕ)| = |c.val| * k / (k + 1 : ℕ) := by
    rw [abs_div, abs_mul, abs_of_pos hk0, abs_of_pos hn0]
  have eb : |p * q / k| = |p| * |q| / k := by rw [abs_div, abs_mul, abs_of_pos hk0]
  -- the first summand
  have a1 := hu (c.val * k)
  rw [abs_mul c.val, abs_of_pos hk0] at a1
  have a2 := hu.round (z := R.rd (c.val * k) / (k + 1 : ℕ)) (t := c.val * k / (k + 1 : ℕ))
    (a := |c.val| * k / (k + 1 : ℕ)) (d := u) (le_of_eq ea) (by
      rw [← sub_div, abs_div, abs_of_pos hn0, ← mul_div_assoc]
      exact div_le_div_of_nonneg_right a1 hn0.le)
  -- the second
  have b1 := prod_err (s := (my - y).val) (t := (mx - x).val) (y := p) (z := q) h0 le_rfl le_rfl
    (by rw [Fl.val_sub, ← hp]; exact hu p) (by rw [Fl.val_sub, ← hq]; exact hu q)
  have b2 := hu.round (z := (my - y).val * (mx - x).val) (t := p * q) (a := |p| * |q|) (d := (1 + u) * (1 + u) - 1)
    (by rw [abs_mul]) b1
  have b3 := hu.round (z := R.rd ((my - y).val * (mx - x).val) / k) (t := p * q / k) (a := |p| * |q| / k)
    (d := (1 + u) ^ 3 - 1) (le_of_eq eb) (by
      rw [← sub_div, abs_div, abs_of_pos hk0, ← mul_div_assoc]
      refine div_le_div_of_nonneg_right (b2.trans (le_of_eq ?_)) hk0.le
      ring)
  have ha : 0 ≤ |c.val| * k / (k + 1 : ℕ) := by positivity
  have c1 := hu.round
    (z := R.rd (R.rd (c.val * k) / (k + 1 : ℕ)) + R.rd (R.rd ((my - y).val * (mx - x).val) / k))
    (t := c.val * k / (k + 1 : ℕ) + p * q / k) (a := |c.val| * k / (k + 1 : ℕ) + |p| * |q| / k) (d := (1 + u) ^ 4 - 1)
    ((abs_add_le _ _).trans (by rw [ea, eb])) (by
      rw [add_sub_add_comm, mul_add]
      refine (abs_add_le _ _).trans (add_le_add (a2.trans ?_) (b3.trans (le_of_eq ?_)))
      · refine mul_le_mul_of_nonneg_right ?_ ha
        have : (1 + u) * (1 + u) ≤ (1 + u) ^ 4 := by
          rw [← pow_two]; exact pow_le_pow_right₀ (by linarith) (by norm_num)
        linarith
      · ring)
  refine ⟨c * (((k + 1 : ℕ) : Fl R) - 1) / ((k + 1 : ℕ) : Fl R) + (my - y) * (mx - x) / (((k + 1 : ℕ) : Fl R) - 1), ?_, ?_⟩
  · simp only [covarianceStep, Res.val_bind, fdiv, if_neg hne, if_neg hne1]
    rw [if_pos (by omega)]
    rfl
  · have e : (c * (((k + 1 : ℕ) : Fl R) - 1) / ((k + 1 : ℕ) : Fl R)
          + (my - y) * (mx - x) / (((k + 1 : ℕ) : Fl R) - 1)).val
        = R.rd (R.rd (R.rd (c.val * k) / (k + 1 : ℕ)) + R.rd (R.rd ((my - y).val * (mx - x).val) / k)) := by
      rw [Fl.val_add, Fl.val_div, Fl.val_div, Fl.val_mul, Fl.val_mul, hcast, hcn']
    rw [e]
    refine c1.trans (le_of_eq ?_)
    ring

/-- `n` times the covariance: the sum of the products minus `n` times the product of the means. -/
def ncov (ps : List (K × K)) : K :=
  (ps.map fun p => p.1 * p.2).sum - (ps.map Prod.fst).sum * (ps.map Prod.snd).sum / ps.length

theorem ncov_step (l : List (K × K)) (p : K × K) (hl : l ≠ []) :
    ncov (l ++ [p]) = ncov l + ((l.length + 1 : ℕ) : K) / l.length *
      ((((l ++ [p]).map Prod.snd).sum / (l.length + 1 : ℕ) - p.2)
        * (((l ++ [p]).map Prod.fst).sum / (l.length + 1 : ℕ) - p.1)) := by
  have hk : (l.length : K) ≠ 0 := by exact_mod_cast (List.length_pos_iff.2 hl).ne'
  have hn : ((l.length + 1 : ℕ) : K) ≠ 0 := by exact_mod_cast Nat.succ_ne_zero l.length
  simp only [ncov, List.map_append, List.sum_append, List.map_cons, List.map_nil, List.sum_cons, List.sum_nil, add_zero,
    List.length_append, List.length_cons, List.length_nil, zero_add]
  push_cast at hn ⊢
  field_simp
  ring

theorem ncov_le {A B : K} (l : List (K × K)) (hA : ∀ p ∈ l, |p.1| ≤ A) (hB : ∀ p ∈ l, |p.2| ≤ B) :
    |ncov l| ≤ 2 * (l.length * (A * B)) := by
  by_cases hl : l = []
  · subst hl; simp [ncov]
  obtain ⟨p0, hp0⟩ := List.exists_mem_of_ne_nil _ hl
  have hA0 : 0 ≤ A := (abs_nonneg _).trans (hA p0 hp0)
  have hn0 : (0 : K) < l.length := by exact_mod_cast List.length_pos_iff.2 hl
  have h1 := abs_sum_le_of (M := A * B) (l.map fun p => p.1 * p.2) (by
    intro z hz
    obtain ⟨p, hp, rfl⟩ := List.mem_map.1 hz
    rw [abs_mul]
    exact mul_le_mul (hA p hp) (hB p hp) (abs_nonneg _) hA0)
  have h2 := abs_sum_le_of (M := A) (l.map Prod.fst) (by
    intro z hz
    obtain ⟨p, hp, rfl⟩ := List.mem_map.1 hz
    exact hA p hp)
  have h3 := abs_sum_le_of (M := B) (l.map Prod.snd) (by
    intro z hz
    obtain ⟨p, hp, rfl⟩ := List.mem_map.1 hz
    exact hB p hp)
  rw [List.length_map] at h1 h2 h3
  have h4 : |(l.map Prod.fst).sum * (l.map Prod.snd).sum / l.length| ≤ l.length * (A * B) := by
    rw [abs_div, abs_mul, abs_of_pos hn0, div_le_iff₀ hn0]
    refine (mul_le_mul h2 h3 (abs_nonneg _) (by positivity)).trans (le_of_eq ?_)
    ring
  unfold ncov
  refine (abs_sub _ _).trans ?_
  linarith

/-- The exact update reading a wrong mean. -/
theorem dev_prod_err {x y mx my mux muy A B d : K} (hd : 0 ≤ d) (hx : |x| ≤ A) (hy : |y| ≤ B) (hux : |mux| ≤ A)
    (huy : |muy| ≤ B) (h1 : |mx - mux| ≤ d * A) (h2 : |my - muy| ≤ d * B) :
    |(my - y) * (mx - x) - (muy - y) * (mux - x)| ≤ (4 * d + d ^ 2) * (A * B) ∧
      |my - y| * |mx - x| ≤ (4 + (4 * d + d ^ 2)) * (A * B) := by
  have hA : 0 ≤ A := (abs_nonneg _).trans hx
  have hB : 0 ≤ B := (abs_nonneg _).trans hy
  have d1 : |mux - x| ≤ 2 * A := (abs_sub _ _).trans (by linarith)
  have d2 : |muy - y| ≤ 2 * B := (abs_sub _ _).trans (by linarith)
  have e1 : mx - x - (mux - x) = mx - mux := by ring
  have e2 : my - y - (muy - y) = my - muy := by ring
  have p := prod_err (s := my - y) (t := mx - x) (y := muy - y) (z := mux - x) (a := 2 * B) (b := 2 * A) (d := d / 2)
    (e := d / 2) (by linarith) d2 d1 (by rw [e2]; linarith) (by rw [e1]; linarith)
  have pe : ((1 + d / 2) * (1 + d / 2) - 1) * (2 * B * (2 * A)) = (4 * d + d ^ 2) * (A * B) := by ring
  rw [pe] at p
  refine ⟨p, ?_⟩
  rw [← abs_mul]
  have q : |(muy - y) * (mux - x)| ≤ 4 * (A * B) := by
    rw [abs_mul]
    refine (mul_le_mul d2 d1 (abs_nonneg _) (by linarith)).trans (le_of_eq ?_)
    ring
  have := abs_sub_abs_le_abs_sub ((my - y) * (mx - x)) ((muy - y) * (mux - x))
  linarith

/-- The arithmetic of one step of the recursion. -/
theorem cov_round_arith {g D G k n c c' b be Q0 Q V : K} (hg : 1 ≤ g) (hG : 1 ≤ G) (hD : 0 ≤ D) (hk1 : 1 ≤ k)
    (hnk : n = k + 1) (hV : 0 ≤ V) (ie : |k * c - Q0| ≤ 8 * ((G * (1 + D) - 1) * (k * V))) (hQ0 : |Q0| ≤ 2 * (k * V))
    (hQ : Q = Q0 + n / k * be) (hb : 2 * |b - be| ≤ D * V) {B : K} (hB : 2 * B ≤ (8 + D) * V) (hB0 : 0 ≤ B)
    (r : |c' - (c * k / n + b / k)| ≤ (g - 1) * (|c| * k / n + B / k)) :
    |n * c' - Q| ≤ 8 * ((G * g * (1 + D) - 1) * (n * V)) := by
  have hk0 : 0 < k := by linarith
  have hn0 : 0 < n := by linarith
  have hn2 : n / k ≤ 2 := by rw [div_le_iff₀ hk0]; linarith
  have hnk0 : 0 < n / k := div_pos hn0 hk0
  have r1 : |n * c' - (k * c + n / k * b)| ≤ (g - 1) * (k * |c| + (8 + D) * V) := by
    have e : n * c' - (k * c + n / k * b) = n * (c' - (c * k / n + b / k)) := by field_simp
    rw [e, abs_mul, abs_of_pos hn0]
    refine (mul_le_mul_of_nonneg_left r hn0.le).trans ?_
    have e2 : n * ((g - 1) * (|c| * k / n + B / k)) = (g - 1) * (k * |c| + n / k * B) := by field_simp
    rw [e2]
    refine mul_le_mul_of_nonneg_left ?_ (by linarith)
    have := mul_le_mul_of_nonneg_right hn2 hB0
    linarith
  have r2 : |k * c + n / k * b - Q| ≤ 8 * ((G * (1 + D) - 1) * (k * V)) + D * V := by
    have e : k * c + n / k * b - Q = (k * c - Q0) + n / k * (b - be) := by rw [hQ]; ring
    rw [e]
    refine (abs_add_le _ _).trans (add_le_add ie ?_)
    rw [abs_mul, abs_of_pos hnk0]
    have := mul_le_mul_of_nonneg_right hn2 (abs_nonneg (b - be))
    linarith
  have r3 : k * |c| ≤ 2 * (k * V) + 8 * ((G * (1 + D) - 1) * (k * V)) := by
    have h1 : k * |c| = |k * c| := by rw [abs_mul, abs_of_pos hk0]
    have h2 := abs_sub_abs_le_abs_sub (k * c) Q0
    rw [h1]
    linarith
  have r4 : |n * c' - Q| ≤ (g - 1) * (k * |c| + (8 + D) * V) + (8 * ((G * (1 + D) - 1) * (k * V)) + D * V) := by
    rw [← sub_add_sub_cancel (n * c') (k * c + n / k * b) Q]
    exact (abs_add_le _ _).trans (add_le_add r1 r2)
  have r5 := mul_le_mul_of_nonneg_left r3 (sub_nonneg.2 hg)
  have e : 8 * ((G * g * (1 + D) - 1) * (n * V)) =
      (g - 1) * (2 * (k * V) + 8 * ((G * (1 + D) - 1) * (k * V)) + (8 + D) * V)
        + (8 * ((G * (1 + D) - 1) * (k * V)) + D * V)
        + (8 * (g * (G - 1) * (1 + D) * V) + 6 * ((g - 1) * (k * V)) + 7 * ((g - 1) * (D * V)) + 7 * (D * V)) := by
    rw [hnk]; ring
  have p1 : 0 ≤ g * (G - 1) * (1 + D) * V :=
    mul_nonneg (mul_nonneg (mul_nonneg (by linarith) (by linarith)) (by linarith)) hV
  have p2 : 0 ≤ (g - 1) * (k * V) := mul_nonneg (by linarith) (mul_nonneg hk0.le hV)
  have p3 : 0 ≤ (g - 1) * (D * V) := mul_nonneg (by linarith) (mul_nonneg hD hV)
  have p4 : 0 ≤ D * V := mul_nonneg hD hV
  rw [e]
  have r6 : (g - 1) * (k * |c| + (8 + D) * V)
      ≤ (g - 1) * (2 * (k * V) + 8 * ((G * (1 + D) - 1) * (k * V)) + (8 + D) * V) := by
    refine mul_le_mul_of_nonneg_left ?_ (by linarith)
    linarith
  linarith

/-- **C93** `covariance` over any two means that are never further than `(1 + u)ᶜ - 1` times the largest sample
(variate) from the exact ones: the error is at most `8 ((1 + u)⁵ⁿ⁺⁸ᶜ - 1)` times the largest sample times the largest
variate. -/
theorem C93_over (hu : R.RelErr u) (P Q : MeanProvider (Fl R) (Fl R)) {A B : K} {c : ℕ} (ps : List (Fl R × Fl R))
    (h : ps ≠ []) (hc : R.Counts ps.length) (hA : ∀ p ∈ ps, |p.1.val| ≤ A) (hB : ∀ p ∈ ps, |p.2.val| ≤ B)
    (hP : ∀ l, l <+: ps → l ≠ [] → ∃ m, P.read (P.run (l.map Prod.fst)) = .val m ∧
      |m.val - (l.map fun p => p.1.val).sum / l.length| ≤ ((1 + u) ^ c - 1) * A)
    (hQ : ∀ l, l <+: ps → l ≠ [] → ∃ m, Q.read (Q.run (l.map Prod.snd)) = .val m ∧
      |m.val - (l.map fun p => p.2.val).sum / l.length| ≤ ((1 + u) ^ c - 1) * B) :
    ∃ v : Fl R, covarianceRun P Q 0 0 ps = .val v ∧
      |v.val - ((ps.map fun p => p.1.val * p.2.val).sum / ps.length
          - (ps.map fun p => p.1.val).sum / ps.length * ((ps.map fun p => p.2.val).sum / ps.length))|
        ≤ 8 * (((1 + u) ^ (5 * ps.length + 8 * c) - 1) * (A * B)) := by
  have h0 := hu.nonneg
  obtain ⟨p0, hp0⟩ := List.exists_mem_of_ne_nil _ h
  have hA0 : 0 ≤ A := (abs_nonneg _).trans (hA p0 hp0)
  have hB0 : 0 ≤ B := (abs_nonneg _).trans (hB p0 hp0)
  have hV : 0 ≤ A * B := mul_nonneg hA0 hB0
  have one_ne : (1 : Fl R) ≠ 0 := by
    intro e
    rw [Fl.eq_zero_iff] at e
    exact one_ne_zero e
  have hz : ((0 : Fl R) / 1 * (0 / 1)).val = 0 := by
    rw [Fl.val_mul, Fl.val_div, Fl.val_zero, zero_div, R.zero, zero_mul, R.zero]
  obtain ⟨g, hg⟩ : ∃ g, g = (1 + u) ^ 5 := ⟨_, rfl⟩
  have hg1 : 1 ≤ g := hg ▸ one_le_pow₀ (by linarith)
  obtain ⟨d, hd⟩ : ∃ d, d = (1 + u) ^ c - 1 := ⟨_, rfl⟩
  have hd0 : 0 ≤ d := hd ▸ pow_rel h0 c
  obtain ⟨D, hD⟩ : ∃ D, D = 2 * (4 * d + d ^ 2) := ⟨_, rfl⟩
  have hD0 : 0 ≤ D := by rw [hD]; positivity
  obtain ⟨w, hw⟩ : ∃ w : Fl R × Fl R → K × K, w = fun p => (p.1.val, p.2.val) := ⟨_, rfl⟩
  have key : ∀ l, l <+: ps → (l.foldl (CovSt.push P Q) (CovSt.init P Q 0 0)).cnt = l.length ∧
      (l.foldl (CovSt.push P Q) (CovSt.init P Q 0 0)).mx = P.run (l.map Prod.fst) ∧
      (l.foldl (CovSt.push P Q) (CovSt.init P Q 0 0)).my = Q.run (l.map Prod.snd) ∧
      ∃ v : Fl R, (l.foldl (CovSt.push P Q) (CovSt.init P Q 0 0)).cov = .val v ∧ (l.length ≤ 1 → v.val = 0) ∧
        |l.length * v.val - ncov (l.map w)| ≤ 8 * ((g ^ l.length * (1 + D) - 1) * (l.length * (A * B))) := by
    intro l
    induction l using List.reverseRecOn with
    | nil =>
      refine fun _ => ⟨rfl, rfl, rfl, 0 / 1 * (0 / 1), by simp [CovSt.init, fdiv, one_ne, Res.val_bind], fun _ => hz, ?_⟩
      simp [ncov]
    | append_singleton l x ih =>
      intro hpre
      have hpl : l <+: ps := (List.prefix_append l [x]).trans hpre
      obtain ⟨ic, imx, imy, v, iv, iv0, ie⟩ := ih hpl
      have hlen : l.length + 1 ≤ ps.length := by simpa using hpre.length_le
      have hAl : ∀ y ∈ l ++ [x], |y.1.val| ≤ A := fun y hy => hA y (hpre.subset hy)
      have hBl : ∀ y ∈ l ++ [x], |y.2.val| ≤ B := fun y hy => hB y (hpre.subset hy)
      obtain ⟨mx, emx, hmx⟩ := hP (l ++ [x]) hpre (by simp)
      obtain ⟨my, emy, hmy⟩ := hQ (l ++ [x]) hpre (by simp)
      have erunx : P.push (P.run (l.map Prod.fst)) x.1 = P.run ((l ++ [x]).map Prod.fst) := by
        simp [MeanProvider.run, List.foldl_append]
      have eruny : Q.push (Q.run (l.map Prod.snd)) x.2 = Q.run ((l ++ [x]).map Prod.snd) := by
        simp [MeanProvider.run, List.foldl_append]
      rw [List.foldl_append, List.foldl_cons, List.foldl_nil]
      simp only [CovSt.push, ic, imx, imy, iv, erunx, eruny, emx, emy]
      refine ⟨by simp, trivial, trivial, ?_⟩
      by_cases hl : l = []
      · subst hl
        have hv0 : v.val = 0 := iv0 (by simp)
        refine ⟨v, by simp [covarianceStep], fun _ => hv0, ?_⟩
        have e0 : ncov (([] ++ [x]).map w) = 0 := by simp [ncov]
        rw [e0, hv0, mul_zero, sub_zero, abs_zero]
        have : 0 ≤ g * (1 + D) - 1 := by nlinarith
        simp only [List.nil_append, List.length_singleton, pow_one, Nat.cast_one, one_mul]
        exact mul_nonneg (by norm_num) (mul_nonneg this hV)
      · have hk := List.length_pos_iff.2 hl
        obtain ⟨v', e', r⟩ := covariance_step_err hu hk (hc _ (by omega)) (hc _ hlen) mx my v x.1 x.2
        refine ⟨v', e', fun hh => absurd hh (by simp; omega), ?_⟩
        have ell : (l ++ [x]).length = l.length + 1 := by simp
        rw [ell] at hmx hmy ⊢
        have estep := ncov_step (l.map w) (w x) (by simpa using hl)
        rw [List.length_map] at estep
        have emap : l.map w ++ [w x] = (l ++ [x]).map w := by simp
        rw [emap, List.map_map, List.map_map] at estep
        have ef : (Prod.fst ∘ w) = fun p : Fl R × Fl R => p.1.val := by rw [hw]; rfl
        have es : (Prod.snd ∘ w) = fun p : Fl R × Fl R => p.2.val := by rw [hw]; rfl
        rw [ef, es, show (w x).1 = x.1.val by rw [hw], show (w x).2 = x.2.val by rw [hw]] at estep
        have hn0 : (0 : K) < (l.length + 1 : ℕ) := by exact_mod_cast Nat.succ_pos _
        have hux : |((l ++ [x]).map fun p : Fl R × Fl R => p.1.val).sum / ((l.length + 1 : ℕ) : K)| ≤ A := by
          have := abs_sum_le_of (M := A) ((l ++ [x]).map fun p : Fl R × Fl R => p.1.val) (by
            intro z hz
            obtain ⟨p, hp, rfl⟩ := List.mem_map.1 hz
            exact hAl p hp)
          rw [List.length_map, ell] at this
          rw [abs_div, abs_of_pos hn0, div_le_iff₀ hn0]
          linarith
        have huy : |((l ++ [x]).map fun p : Fl R × Fl R => p.2.val).sum / ((l.length + 1 : ℕ) : K)| ≤ B := by
          have := abs_sum_le_of (M := B) ((l ++ [x]).map fun p : Fl R × Fl R => p.2.val) (by
            intro z hz
            obtain ⟨p, hp, rfl⟩ := List.mem_map.1 hz
            exact hBl p hp)
          rw [List.length_map, ell] at this
          rw [abs_div, abs_of_pos hn0, div_le_iff₀ hn0]
          linarith
        rw [← hd] at hmx hmy
        obtain ⟨dev1, dev2⟩ := dev_prod_err hd0 (hAl x (by simp)) (hBl x (by simp)) hux huy hmx hmy
        have hQ0 := ncov_le (A := A) (B := B) (l.map w) (by
            intro z hz
            obtain ⟨p, hp, rfl⟩ := List.mem_map.1 hz
            rw [hw]; exact hAl p (by simp [hp])) (by
            intro z hz
            obtain ⟨p, hp, rfl⟩ := List.mem_map.1 hz
            rw [hw]; exact hBl p (by simp [hp]))
        rw [List.length_map] at hQ0
        rw [← hg] at r
        have := cov_round_arith (G := g ^ l.length) hg1 (one_le_pow₀ hg1) hD0 (by exact_mod_cast hk)
          (by push_cast; ring) hV ie hQ0 estep (by rw [hD]; linarith)
          (by rw [hD]; linarith) (mul_nonneg (abs_nonneg _) (abs_nonneg _)) r
        rw [pow_succ]
        exact this
  obtain ⟨-, -, -, v, ev, -, he⟩ := key ps List.prefix_rfl
  refine ⟨v, ev, ?_⟩
  have hn0 : (0 : K) < ps.length := by exact_mod_cast List.length_pos_iff.2 h
  have e : v.val - ((ps.map fun p => p.1.val * p.2.val).sum / ps.length
        - (ps.map fun p => p.1.val).sum / ps.length * ((ps.map fun p => p.2.val).sum / ps.length))
      = (ps.length * v.val - ncov (ps.map w)) / ps.length := by
    rw [hw]
    simp only [ncov, List.map_map, Function.comp_def, List.length_map]
    field_simp
  rw [e, abs_div, abs_of_pos hn0, div_le_iff₀ hn0]
  refine he.trans ?_
  have hE : g ^ ps.length * (1 + D) ≤ (1 + u) ^ (5 * ps.length + 8 * c) := by
    rw [pow_add, pow_mul, ← hg]
    refine mul_le_mul_of_nonneg_left ?_ (by positivity)
    rw [mul_comm 8 c, pow_mul]
    have : (1 + u) ^ c = 1 + d := by rw [hd]; ring
    rw [this, hD]
    have : (1 + d) ^ 8 = 1 + 8 * d + 28 * d ^ 2 + (56 * d ^ 3 + 70 * d ^ 4 + 56 * d ^ 5 + 28 * d ^ 6 + 8 * d ^ 7 + d ^ 8) := by
      ring
    rw [this]
    have : 0 ≤ 56 * d ^ 3 + 70 * d ^ 4 + 56 * d ^ 5 + 28 * d ^ 6 + 8 * d ^ 7 + d ^ 8 := by positivity
    nlinarith [sq_nonneg d]
  have h3 : 0 ≤ (ps.length : K) * (A * B) := by positivity
  have h4 := mul_le_mul_of_nonneg_right hE h3
  linarith

/-- A mean whose error is bounded relative to the mean absolute value, read over the prefixes. -/
theorem mean_prefix_err (hu : R.RelErr u) {X : Type} (P : MeanProvider (Fl R) (Fl R)) (f : X → Fl R) {A : K} {e : ℕ → ℕ}
    {ps : List X} (hmono : Monotone e) (hA : ∀ p ∈ ps, |(f p).val| ≤ A) (hc : R.Counts ps.length)
    (hm : ∀ xs : List (Fl R), xs ≠ [] → R.Counts xs.length → ∃ m : Fl R, P.read (P.run xs) = .val m ∧
      |m.val - (xs.map Fl.val).sum / xs.length| ≤ ((1 + u) ^ e xs.length - 1) * ((xs.map fun x => |x.val|).sum / xs.length))
    (l : List X) (hl : l <+: ps) (hne : l ≠ []) :
    ∃ m, P.read (P.run (l.map f)) = .val m ∧
      |m.val - (l.map fun p => (f p).val).sum / l.length| ≤ ((1 + u) ^ e ps.length - 1) * A := by
  have h0 := hu.nonneg
  obtain ⟨m, em, h⟩ := hm (l.map f) (by simpa using hne) (fun k hk => hc k (hk.trans (by simpa using hl.length_le)))
  refine ⟨m, em, ?_⟩
  have hb := mean_abs_le (M := A) (l.map f) (by simpa using hne) (by
    intro z hz
    obtain ⟨p, hp, rfl⟩ := List.mem_map.1 hz
    exact hA p (hl.subset hp))
  have hp : (1 + u) ^ e (l.map f).length ≤ (1 + u) ^ e ps.length :=
    pow_le_pow_right₀ (by linarith) (hmono (by simpa using hl.length_le))
  have h1 := pow_rel h0 (e (l.map f).length)
  have h2 := h.trans (mul_le_mul (by linarith) hb
    (div_nonneg (absSum_nonneg Fl.val _) (Nat.cast_nonneg _)) (by linarith : 0 ≤ (1 + u) ^ e ps.length - 1))
  rw [List.map_map, List.length_map] at h2
  exact h2

/-- **C93** `covariance` with the recursively updated means. -/
theorem C93_immediate (hu : R.RelErr u) {A B : K} (ps : List (Fl R × Fl R)) (h : ps ≠ []) (hc : R.Counts ps.length)
    (hA : ∀ p ∈ ps, |p.1.val| ≤ A) (hB : ∀ p ∈ ps, |p.2.val| ≤ B) :
    ∃ v : Fl R, covarianceRun (immMean 0) (immMean 0) 0 0 ps = .val v ∧
      |v.val - ((ps.map fun p => p.1.val * p.2.val).sum / ps.length
          - (ps.map fun p => p.1.val).sum / ps.length * ((ps.map fun p => p.2.val).sum / ps.length))|
        ≤ 8 * (((1 + u) ^ (29 * ps.length) - 1) * (A * B)) := by
  have hmono : Monotone fun n : ℕ => 3 * n := fun a b hab => Nat.mul_le_mul_left 3 hab
  obtain ⟨v, e, hv⟩ := C93_over hu (immMean 0) (immMean 0) (c := 3 * ps.length) ps h hc hA hB
    (mean_prefix_err hu (immMean 0) Prod.fst hmono hA hc fun xs hx hc => C60_immediate_mean hu 0 xs hx hc)
    (mean_prefix_err hu (immMean 0) Prod.snd hmono hB hc fun xs hx hc => C60_immediate_mean hu 0 xs hx hc)
  refine ⟨v, e, hv.trans (le_of_eq ?_)⟩
  congr 4
  ring

/-- **C93** `covariance` with the means computed as sum by count. -/
theorem C93_lazy (hu : R.RelErr u) {A B : K} (ps : List (Fl R × Fl R)) (h : ps ≠ []) (hc : R.Counts ps.length)
    (hA : ∀ p ∈ ps, |p.1.val| ≤ A) (hB : ∀ p ∈ ps, |p.2.val| ≤ B) :
    ∃ v : Fl R, covarianceRun (lazyMean 0) (lazyMean 0) 0 0 ps = .val v ∧
      |v.val - ((ps.map fun p => p.1.val * p.2.val).sum / ps.length
          - (ps.map fun p => p.1.val).sum / ps.length * ((ps.map fun p => p.2.val).sum / ps.length))|
        ≤ 8 * (((1 + u) ^ (13 * ps.length + 8) - 1) * (A * B)) := by
  have hmono : Monotone fun n : ℕ => n + 1 := fun a b hab => Nat.add_le_add_right hab 1
  obtain ⟨v, e, hv⟩ := C93_over hu (lazyMean 0) (lazyMean 0) (c := ps.length + 1) ps h hc hA hB
    (mean_prefix_err hu (lazyMean 0) Prod.fst hmono hA hc fun xs hx hc => C60_lazy_mean hu xs hx hc)
    (mean_prefix_err hu (lazyMean 0) Prod.snd hmono hB hc fun xs hx hc => C60_lazy_mean hu xs hx hc)
  refine ⟨v, e, hv.trans (le_of_eq ?_)⟩
  congr 4
  ring

/-! ## Bit for bit -/

theorem Fl.mul_comm' (a b : Fl R) : a * b = b * a := by
  apply Subtype.ext
  change (a * b).val = (b * a).val
  rw [Fl.val_mul, Fl.val_mul, mul_comm]

theorem covarianceStep_swap (n : ℕ) (mx my x y : Fl R) (c : Res (Fl R)) :
    covarianceStep n (.val mx) (.val my) c x y = covarianceStep n (.val my) (.val mx) c y x := by
  simp only [covarianceStep, Res.val_bind]
  rw [Fl.mul_comm' (my - y) (mx - x)]

/-- **C93** Exchanging sample and covariate does not change a single bit of the covariance. -/
theorem C93_symmetric (P Q : MeanProvider (Fl R) (Fl R)) (x0 y0 : Fl R)
    (hP : ∀ l, l ≠ [] → ∃ m, P.read (P.run l) = .val m) (hQ : ∀ l, l ≠ [] → ∃ m, Q.read (Q.run l) = .val m)
    (ps : List (Fl R × Fl R)) :
    covarianceRun P Q x0 y0 ps = covarianceRun Q P y0 x0 (ps.map Prod.swap) := by
  have one_ne : (1 : Fl R) ≠ 0 := by
    intro e
    rw [Fl.eq_zero_iff] at e
    exact one_ne_zero e
  have key : ∀ l : List (Fl R × Fl R),
      let a := l.foldl (CovSt.push P Q) (CovSt.init P Q x0 y0)
      let b := (l.map Prod.swap).foldl (CovSt.push Q P) (CovSt.init Q P y0 x0)
      a.cov = b.cov ∧ a.cnt = b.cnt ∧ a.mx = P.run (l.map Prod.fst) ∧ a.my = Q.run (l.map Prod.snd) ∧ b.mx = a.my ∧
        b.my = a.mx := by
    intro l
    induction l using List.reverseRecOn with
    | nil =>
      refine ⟨?_, rfl, rfl, rfl, rfl, rfl⟩
      simp only [List.map_nil, List.foldl_nil, CovSt.init, fdiv, if_neg one_ne, Res.val_bind]
      rw [Fl.mul_comm']
    | append_singleton l p ih =>
      simp only [List.map_append, List.map_cons, List.map_nil, List.foldl_append, List.foldl_cons, List.foldl_nil] at ih ⊢
      obtain ⟨h1, h2, h3, h4, h5, h6⟩ := ih
      obtain ⟨m, hm⟩ := hP (l.map Prod.fst ++ [p.1]) (by simp)
      obtain ⟨m', hm'⟩ := hQ (l.map Prod.snd ++ [p.2]) (by simp)
      have e1 : P.push (P.run (l.map Prod.fst)) p.1 = P.run (l.map Prod.fst ++ [p.1]) := by
        simp [MeanProvider.run, List.foldl_append]
      have e2 : Q.push (Q.run (l.map Prod.snd)) p.2 = Q.run (l.map Prod.snd ++ [p.2]) := by
        simp [MeanProvider.run, List.foldl_append]
      simp only [CovSt.push, Prod.fst_swap, Prod.snd_swap]
      refine ⟨?_, by rw [h2], by rw [h3, e1], by rw [h4, e2], by rw [h5], by rw [h6]⟩
      rw [h5, h6, h3, h4, e1, e2, hm, hm', h1, h2]
      exact covarianceStep_swap _ _ _ _ _ _
  exact (key ps).1

/-- **C93** If rounding commutes with the change of sign (as rounding to nearest does), the covariance of the samples with
themselves is bit for bit the variance. -/
theorem C93_self (hodd : ∀ x, R.rd (-x) = -R.rd x) (P : MeanProvider (Fl R) (Fl R))
    (hP : ∀ l, l ≠ [] → ∃ m, P.read (P.run l) = .val m) (xs : List (Fl R)) :
    covarianceRun P P 0 0 (xs.map fun x => (x, x)) = varianceRun P 0 xs := by
  have one_ne : (1 : Fl R) ≠ 0 := by
    intro e
    rw [Fl.eq_zero_iff] at e
    exact one_ne_zero e
  have key : ∀ l : List (Fl R),
      let a := (l.map fun x => (x, x)).foldl (CovSt.push P P) (CovSt.init P P 0 0)
      let b := l.foldl (VarianceSt.push P) (VarianceSt.init P 0)
      a.cov = b.var ∧ a.cnt = b.cnt ∧ a.mx = P.run l ∧ a.my = P.run l ∧ b.m = P.run l := by
    intro l
    induction l using List.reverseRecOn with
    | nil =>
      refine ⟨?_, rfl, rfl, rfl, rfl⟩
      simp only [List.map_nil, List.foldl_nil, CovSt.init, VarianceSt.init, fdiv, if_neg one_ne, Res.val_bind]
      refine congrArg Res.val (Subtype.ext ?_)
      change ((0 : Fl R) / 1 * (0 / 1)).val = ((0 : Fl R) / 1).val
      rw [Fl.val_mul, Fl.val_div, Fl.val_zero, zero_div, R.zero, zero_mul, R.zero]
    | append_singleton l x ih =>
      simp only [List.map_append, List.map_cons, List.map_nil, List.foldl_append, List.foldl_cons, List.foldl_nil] at ih ⊢
      obtain ⟨h1, h2, h3, h4, h5⟩ := ih
      obtain ⟨m, hm⟩ := hP (l ++ [x]) (by simp)
      have e1 : P.push (P.run l) x = P.run (l ++ [x]) := by simp [MeanProvider.run, List.foldl_append]
      have esq : (m - x) * (m - x) = (x - m) * (x - m) := by
        apply Subtype.ext
        change ((m - x) * (m - x)).val = ((x - m) * (x - m)).val
        rw [Fl.val_mul, Fl.val_mul, Fl.val_sub, Fl.val_sub, ← neg_sub x.val m.val, hodd, neg_mul_neg]
      simp only [CovSt.push, VarianceSt.push, h1, h2, h3, h4, h5, e1, hm]
      refine ⟨?_, trivial, trivial, trivial, trivial⟩
      simp only [covarianceStep, varianceStep, Res.val_bind, esq]
  exact (key xs).1

/-! ## Cancellation -/

/-- **C93, cancellation**: relative to the covariance itself nothing is guaranteed.  Of the corners of the unit square,
whose coordinates are uncorrelated, both covariances are `-2⁻⁵⁶`. -/
theorem C93_cancellation_fails :
    let ps : List (Fl double × Fl double) := [(0, 0), (0, 1), (1, 0), (1, 1)]
    Fl.val <$> covarianceRun (lazyMean 0) (lazyMean 0) 0 0 ps = .val (-1 / 2 ^ 56) ∧
    Fl.val <$> covarianceRun (immMean 0) (immMean 0) 0 0 ps = .val (-1 / 2 ^ 56) ∧
    (ps.map fun p => p.1.val * p.2.val).sum / ps.length
      - (ps.map fun p => p.1.val).sum / ps.length * ((ps.map fun p => p.2.val).sum / ps.length) = 0 := by
  decide +kernel

/-! ## The hypotheses can be met -/

example := C93_immediate double_relErr (A := 1) (B := 2) [(Fl.ofK double (1 / 10), 1), (1, 1 + 1), (0, 1)] (by simp)
  (double_counts (by simp)) (by decide +kernel) (by decide +kernel)

example := C93_lazy double_relErr (A := 1) (B := 2) [(Fl.ofK double (1 / 10), 1), (1, 1 + 1), (0, 1)] (by simp)
  (double_counts (by simp)) (by decide +kernel) (by decide +kernel)

/-- The immediate mean is a number. -/
theorem immMean_reads (m0 : Fl R) (l : List (Fl R)) : ∃ m, (immMean m0).read ((immMean m0).run l) = .val m := by
  have one_ne : (1 : Fl R) ≠ 0 := by
    intro e
    rw [Fl.eq_zero_iff] at e
    exact one_ne_zero e
  have hc : ∀ n : ℕ, ((n + 1 : ℕ) : Fl R) ≠ 0 := by
    intro n e
    rw [Fl.eq_zero_iff, Fl.val_natCast] at e
    have h1 : (1 : K) ≤ ((n + 1 : ℕ) : K) := by exact_mod_cast Nat.succ_pos n
    have := R.mono h1
    rw [e, R.one] at this
    exact absurd this (by norm_num)
  induction l using List.reverseRecOn with
  | nil => exact ⟨m0 / 1, by simp [MeanProvider.run, immMean, fdiv, one_ne]⟩
  | append_singleton l x ih =>
    obtain ⟨m, hm⟩ := ih
    simp only [MeanProvider.run, List.foldl_append, List.foldl_cons, List.foldl_nil] at hm ⊢
    simp only [immMean, immMeanStep] at hm ⊢
    rw [hm, Res.val_bind, fdiv, if_neg (hc _)]
    exact ⟨_, rfl⟩

example (xs : List (Fl double)) :
    covarianceRun (immMean 0) (immMean 0) 0 0 (xs.map fun x => (x, x)) = varianceRun (immMean 0) 0 xs :=
  C93_self (roundBits_neg 53) _ (fun l _ => immMean_reads 0 l) xs

end Acc
