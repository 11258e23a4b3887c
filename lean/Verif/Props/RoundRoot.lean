import Verif.Model.Root
import Verif.Props.RoundKurt
import Verif.Props.Basic

/-!
# C97: skewness and error_of<mean> in floating point arithmetic

`Fl R` is a floating point type with rounding `R`; `u` bounds the relative error of one operation, `std::sqrt` included.
-/

set_option linter.unusedSectionVars false

namespace Acc

variable {K : Type} [Field K] [LinearOrder K] [IsStrictOrderedRing K] {R : Rounding K} {u : K}

/-! ## the square root -/

/-- `root` is a square root of relative error `u`, not a number for negative arguments.  (Squared, because `K` need not have
square roots.) -/
structure IsRoot (root : Fl R → Res (Fl R)) (u : K) : Prop where
  neg : ∀ x, x.val < 0 → root x = .nonfinite
  val : ∀ x, 0 ≤ x.val → ∃ r, root x = .val r ∧ 0 ≤ r.val ∧
    (1 - u) ^ 2 * x.val ≤ r.val ^ 2 ∧ r.val ^ 2 ≤ (1 + u) ^ 2 * x.val

/-- The correctly rounded root of the reals is one. -/
theorem isRoot_real {R : Rounding ℝ} {u : ℝ} (hu : R.RelErr u) (hu1 : u ≤ 1) :
    IsRoot (R := R) (fun x => if x.val < 0 then .nonfinite else .val (Fl.ofK R (Real.sqrt x.val))) u := by
  refine ⟨fun x hx => if_pos hx, fun x hx => ⟨_, if_neg (not_lt.2 hx), ?_⟩⟩
  have h0 := hu.nonneg
  have hs := Real.sqrt_nonneg x.val
  have e := hu (Real.sqrt x.val)
  rw [abs_of_nonneg hs, abs_le] at e
  have l : (1 - u) * Real.sqrt x.val ≤ (Fl.ofK R (Real.sqrt x.val)).val := by
    show _ ≤ R.rd _
    linarith [e.1]
  have r : (Fl.ofK R (Real.sqrt x.val)).val ≤ (1 + u) * Real.sqrt x.val := by
    show R.rd _ ≤ _
    linarith [e.2]
  have l0 : 0 ≤ (1 - u) * Real.sqrt x.val := mul_nonneg (by linarith) hs
  refine ⟨l0.trans l, ?_, ?_⟩
  · have := pow_le_pow_left₀ l0 l 2
    rwa [mul_pow, Real.sq_sqrt hx] at this
  · have := pow_le_pow_left₀ (l0.trans l) r 2
    rwa [mul_pow, Real.sq_sqrt hx] at this

theorem IsRoot.mono {root : Fl R → Res (Fl R)} {w : K} (h : IsRoot root u) (h0 : 0 ≤ u) (hw : u ≤ w) (hw1 : w ≤ 1) :
    IsRoot root w := by
  refine ⟨h.neg, fun x hx => ?_⟩
  obtain ⟨r, e, r0, a, b⟩ := h.val x hx
  refine ⟨r, e, r0, (mul_le_mul_of_nonneg_right ?_ hx).trans a, b.trans (mul_le_mul_of_nonneg_right ?_ hx)⟩
  · exact pow_le_pow_left₀ (by linarith) (by linarith) 2
  · exact pow_le_pow_left₀ (by linarith) (by linarith) 2

/-- The root of an approximate number. -/
theorem IsRoot.err {root : Fl R → Res (Fl R)} (h : IsRoot root u) (h0 : 0 ≤ u) (hu1 : u ≤ 1) {x : Fl R} {v σ η : K}
    (hσ : 0 < σ) (hv : v = σ ^ 2) (hη : η ≤ 1) (hx : |x.val - v| ≤ η * v) :
    ∃ r, root x = .val r ∧ |r.val - σ| ≤ ((1 + u) * (1 + η) - 1) * σ := by
  have hv0 : 0 < v := by rw [hv]; positivity
  have hη0 : 0 ≤ η := by
    by_contra c
    have := (abs_nonneg _).trans hx
    nlinarith [mul_pos (neg_pos.2 (not_le.1 c)) hv0]
  rw [abs_le] at hx
  have hx1 : (1 - η) * v ≤ x.val := by linarith [hx.1]
  have hx2 : x.val ≤ (1 + η) * v := by linarith [hx.2]
  have hx0 : 0 ≤ x.val := (mul_nonneg (by linarith) hv0.le).trans hx1
  obtain ⟨r, e, r0, a, b⟩ := h.val x hx0
  refine ⟨r, e, ?_⟩
  have up : r.val ≤ (1 + u) * (1 + η) * σ := by
    refine (pow_le_pow_iff_left₀ r0 (by positivity) two_ne_zero).1 (b.trans ?_)
    calc (1 + u) ^ 2 * x.val ≤ (1 + u) ^ 2 * ((1 + η) * v) := mul_le_mul_of_nonneg_left hx2 (sq_nonneg _)
      _ ≤ (1 + u) ^ 2 * ((1 + η) * (1 + η) * v) :=
        mul_le_mul_of_nonneg_left (mul_le_mul_of_nonneg_right (by nlinarith) hv0.le) (sq_nonneg _)
      _ = _ := by rw [hv]; ring
  have lo : (1 - u) * (1 - η) * σ ≤ r.val := by
    refine (pow_le_pow_iff_left₀ (mul_nonneg (mul_nonneg (by linarith) (by linarith)) hσ.le) r0 two_ne_zero).1 (le_trans ?_ a)
    calc ((1 - u) * (1 - η) * σ) ^ 2 = (1 - u) ^ 2 * ((1 - η) * (1 - η) * v) := by rw [hv]; ring
      _ ≤ (1 - u) ^ 2 * ((1 - η) * v) :=
        mul_le_mul_of_nonneg_left (mul_le_mul_of_nonneg_right (by nlinarith) hv0.le) (sq_nonneg _)
      _ ≤ _ := mul_le_mul_of_nonneg_left hx1 (sq_nonneg _)
  rw [abs_le]
  have : 0 ≤ u * η * σ := by positivity
  constructor <;> nlinarith

/-! ## skewness -/

/-- From approximate moments and mean. -/
theorem skewnessWith_err (hu : R.RelErr u) (hu1 : u ≤ 1) (hc : R.Counts 3) {root : Fl R → Res (Fl R)} (hroot : IsRoot root u)
    {m2 m3 m : Fl R} {M2 M3 mu B : K} {a e : ℕ}
    (h2 : Near u a m2 M2 (B ^ 2)) (h3 : Near u a m3 M3 (B ^ 3)) (h1 : Near u e m mu B)
    {σ γ δ η θ : K} (hσ : 0 < σ) (hv : σ ^ 2 = M2 - mu * mu) (hδ : δ = (1 + u) ^ (a + 3 * e + 4) - 1)
    (hγ : γ = (M3 - 3 * M2 * mu + 2 * mu * mu * mu) / σ ^ 3)
    (hη : η = 2 * δ * (B / σ) ^ 2) (hθ : θ = (1 + u) ^ 2 * (1 + η) ^ 2 - 1) (hsmall : 2 * θ ≤ 1) :
    ∃ q : Fl R, skewnessWith root (.val m2) (.val m3) (.val m) = .val q ∧
      |q.val - γ| ≤ (1 + u) * (12 * δ * (B / σ) ^ 3 + 2 * θ * |γ|) + u * |γ| := by
  have h0 := hu.nonneg
  have n3 : Near u 0 (3 : Fl R) 3 3 := by simpa using Near.nat (u := u) (hc 3 (by norm_num))
  have n2 : Near u 0 (2 : Fl R) 2 2 := by simpa using Near.nat (u := u) (hc 2 (by norm_num))
  have x := (n3.mul hu h2).mul hu h1
  have y := ((n2.mul hu h1).mul hu h1).mul hu h1
  have s1 := (h3.mono h0 (show a ≤ a + 3 * e + 2 by omega)).sub hu (x.mono h0 (show _ ≤ a + 3 * e + 2 by omega))
  have num := (s1.add hu (y.mono h0 (show _ ≤ a + 3 * e + 2 + 1 by omega))).2
  have d1 := ((h2.mono h0 (show a ≤ a + 2 * e + 1 by omega)).sub hu
    ((h1.mul hu h1).mono h0 (show _ ≤ a + 2 * e + 1 by omega))).mono h0 (show _ ≤ a + 3 * e + 4 by omega)
  have den := d1.2
  rw [show a + 3 * e + 2 + 1 + 1 = a + 3 * e + 4 by ring, ← hδ,
    show B ^ 3 + 3 * B ^ 2 * B + 2 * B * B * B = 6 * B ^ 3 by ring] at num
  rw [← hδ, ← hv, show δ * (B ^ 2 + B * B) = η * σ ^ 2 by rw [hη]; field_simp; ring] at den
  have hδ0 : 0 ≤ δ := by rw [hδ]; exact pow_rel h0 _
  have hη0 : 0 ≤ η := by rw [hη]; positivity
  have hη1 : η ≤ 1 := by
    by_contra c
    have c := (not_le.1 c).le
    have e1 : 1 ≤ (1 + u) ^ 2 := one_le_pow₀ (by linarith)
    have e2 : 4 ≤ (1 + η) ^ 2 := by nlinarith
    nlinarith
  obtain ⟨r, er, hr⟩ := hroot.err h0 hu1 hσ rfl hη1 den
  have hσ2 : 0 < σ ^ 2 := by positivity
  have hσ3 : 0 < σ ^ 3 := by positivity
  have p := prod_err hη0 (le_of_eq (abs_of_pos hσ2)) (le_of_eq (abs_of_pos hσ)) den hr
  have hts : |σ ^ 2 * σ| ≤ σ ^ 2 * σ := le_of_eq (abs_of_pos (mul_pos hσ2 hσ))
  have p' := hu.round hts p
  have p2 : |((m2 - m * m) * r).val - σ ^ 3| ≤ θ * σ ^ 3 := by
    rw [Fl.val_mul, show σ ^ 3 = σ ^ 2 * σ by ring]
    refine p'.trans (le_of_eq ?_)
    rw [hθ]
    ring
  obtain ⟨hb0, hq⟩ := quot_err hσ3 num p2 (by nlinarith)
  have hne : (m2 - m * m) * r ≠ 0 := by
    intro e
    rw [Fl.eq_zero_iff] at e
    linarith
  refine ⟨(m3 - 3 * m2 * m + 2 * m * m * m) / ((m2 - m * m) * r), ?_, ?_⟩
  · simp only [skewnessWith, Res.val_bind, er, fdiv, if_neg hne]
  · rw [← hγ] at hq
    rw [Fl.val_div]
    refine (near_div_arith hu hq).trans (le_of_eq ?_)
    field_simp
    ring

/-- **C97** `skewness` over any provider of the mean of error `(1+u)ᵉ - 1` (relative to the mean absolute value): if `B` bounds
the samples, `σ > 0` is the root of their variance and `γ` their skewness, the result differs from `γ` by at most
`(1+u) (12 δ (B/σ)³ + 2 θ |γ|) + u |γ|` with `δ = (1+u)ⁿ⁺³ᵉ⁺⁷ - 1`, `η = 2 δ (B/σ)²`, `θ = (1+u)² (1+η)² - 1 ≤ 1/2`. -/
theorem C97_skewness_over (hu : R.RelErr u) (hu1 : u ≤ 1) {root : Fl R → Res (Fl R)} (hroot : IsRoot root u)
    (P : MeanProvider (Fl R) (Fl R)) {B : K} {e : ℕ} (xs : List (Fl R)) (h : xs ≠ [])
    (hB : ∀ x ∈ xs, |x.val| ≤ B) (hc : R.Counts (max 3 xs.length))
    (hP : ∃ m, P.read (P.run xs) = .val m ∧
      |m.val - (xs.map Fl.val).sum / xs.length| ≤ ((1 + u) ^ e - 1) * ((xs.map fun x => |x.val|).sum / xs.length))
    {σ γ δ η θ : K} (hσ : 0 < σ) (hv : σ ^ 2 = Spec.variance (xs.map Fl.val))
    (hγ : γ = Spec.centralMoment 3 (xs.map Fl.val) / σ ^ 3) (hδ : δ = (1 + u) ^ (xs.length + 3 * e + 7) - 1)
    (hη : η = 2 * δ * (B / σ) ^ 2) (hθ : θ = (1 + u) ^ 2 * (1 + η) ^ 2 - 1) (hsmall : 2 * θ ≤ 1) :
    ∃ q : Fl R, skewnessRunWith root P xs = .val q ∧
      |q.val - γ| ≤ (1 + u) * (12 * δ * (B / σ) ^ 3 + 2 * θ * |γ|) + u * |γ| := by
  have hcn : R.Counts xs.length := fun k hk => hc k (hk.trans (le_max_right _ _))
  obtain ⟨m, hm, he⟩ := hP
  obtain ⟨m2, e2, n2⟩ := near_moment hu (k := 2) (a := xs.length + 3) (by norm_num) h hB hcn (by omega)
  obtain ⟨m3, e3, n3⟩ := near_moment hu (k := 3) (a := xs.length + 3) (by norm_num) h hB hcn (by omega)
  have n1 := near_mean hu.nonneg h hB he
  have hne : xs.map Fl.val ≠ [] := by simpa using h
  rw [← specMean_val] at n1
  rw [← specRawMoment_val] at n2 n3
  rw [Spec.variance, centralTwo_eq hne] at hv
  rw [centralThree_eq hne] at hγ
  obtain ⟨q, hq, hr⟩ := skewnessWith_err hu hu1 (fun k hk => hc k (hk.trans (le_max_left _ _))) hroot n2 n3 n1 (γ := γ) hσ hv
    (by rw [hδ]; ring_nf) hγ hη hθ hsmall
  exact ⟨q, by rw [skewnessRunWith, e2, e3, hm]; exact hq, hr⟩

/-- **C97** With the mean as a sum divided by the count. -/
theorem C97_skewness_lazy (hu : R.RelErr u) (hu1 : u ≤ 1) {root : Fl R → Res (Fl R)} (hroot : IsRoot root u)
    {B : K} (xs : List (Fl R)) (h : xs ≠ []) (hB : ∀ x ∈ xs, |x.val| ≤ B) (hc : R.Counts (max 3 xs.length))
    {σ γ δ η θ : K} (hσ : 0 < σ) (hv : σ ^ 2 = Spec.variance (xs.map Fl.val))
    (hγ : γ = Spec.centralMoment 3 (xs.map Fl.val) / σ ^ 3) (hδ : δ = (1 + u) ^ (4 * xs.length + 10) - 1)
    (hη : η = 2 * δ * (B / σ) ^ 2) (hθ : θ = (1 + u) ^ 2 * (1 + η) ^ 2 - 1) (hsmall : 2 * θ ≤ 1) :
    ∃ q : Fl R, skewnessRunWith root (lazyMean 0) xs = .val q ∧
      |q.val - γ| ≤ (1 + u) * (12 * δ * (B / σ) ^ 3 + 2 * θ * |γ|) + u * |γ| :=
  C97_skewness_over hu hu1 hroot (lazyMean 0) xs h hB hc
    (C60_lazy_mean hu xs h fun k hk => hc k (hk.trans (le_max_right _ _))) hσ hv hγ (by rw [hδ]; ring_nf) hη hθ hsmall

/-- **C97** With the mean updated recursively. -/
theorem C97_skewness_immediate (hu : R.RelErr u) (hu1 : u ≤ 1) {root : Fl R → Res (Fl R)} (hroot : IsRoot root u)
    {B : K} (xs : List (Fl R)) (h : xs ≠ []) (hB : ∀ x ∈ xs, |x.val| ≤ B) (hc : R.Counts (max 3 xs.length))
    {σ γ δ η θ : K} (hσ : 0 < σ) (hv : σ ^ 2 = Spec.variance (xs.map Fl.val))
    (hγ : γ = Spec.centralMoment 3 (xs.map Fl.val) / σ ^ 3) (hδ : δ = (1 + u) ^ (10 * xs.length + 7) - 1)
    (hη : η = 2 * δ * (B / σ) ^ 2) (hθ : θ = (1 + u) ^ 2 * (1 + η) ^ 2 - 1) (hsmall : 2 * θ ≤ 1) :
    ∃ q : Fl R, skewnessRunWith root (immMean 0) xs = .val q ∧
      |q.val - γ| ≤ (1 + u) * (12 * δ * (B / σ) ^ 3 + 2 * θ * |γ|) + u * |γ| :=
  C97_skewness_over hu hu1 hroot (immMean 0) xs h hB hc
    (C60_immediate_mean hu 0 xs h fun k hk => hc k (hk.trans (le_max_right _ _))) hσ hv hγ (by rw [hδ]; ring_nf) hη hθ hsmall

/-! ## weighted_skewness -/

/-- **C97** `weighted_skewness` over a provider of the weighted mean of error `((1+w)ᵉ - 1) B`, for non-negative weights;
`1 + w = (1+u)/(1-u)`, so `w` is about `2u`. -/
theorem C97_weighted_over (hu : R.RelErr u) (hu1 : u < 1) {w : K} (hq : 1 + w = (1 + u) / (1 - u)) (hw1 : w ≤ 1)
    {root : Fl R → Res (Fl R)} (hroot : IsRoot root u)
    (P : MeanProvider (Fl R × Fl R) (Fl R)) {B : K} {e : ℕ} (ps : List (Fl R × Fl R)) (hw : ∀ p ∈ ps, 0 ≤ p.2.val)
    (hW : 0 < (ps.map fun p => p.2.val).sum) (hB : ∀ p ∈ ps, |p.1.val| ≤ B) (hc : R.Counts 3)
    (hP : ∃ m, P.read (P.run ps) = .val m ∧ |m.val - Spec.wmean (ps.map pairVal)| ≤ ((1 + w) ^ e - 1) * B)
    {σ γ δ η θ : K} (hσ : 0 < σ) (hv : σ ^ 2 = Spec.wvariance (ps.map pairVal))
    (hγ : γ = Spec.wcentralMoment 3 (ps.map pairVal) / σ ^ 3) (hδ : δ = (1 + w) ^ (ps.length + 3 * e + 8) - 1)
    (hη : η = 2 * δ * (B / σ) ^ 2) (hθ : θ = (1 + w) ^ 2 * (1 + η) ^ 2 - 1) (hsmall : 2 * θ ≤ 1) :
    ∃ q : Fl R, weightedSkewnessRunWith root P ps = .val q ∧
      |q.val - γ| ≤ (1 + w) * (12 * δ * (B / σ) ^ 3 + 2 * θ * |γ|) + w * |γ| := by
  have hr := relErr_quot hu hu1 hq
  have h0 := hu.nonneg
  have huw : u ≤ w := by
    have : 1 + u ≤ 1 + w := by
      rw [hq, le_div_iff₀ (by linarith)]
      nlinarith
    linarith
  obtain ⟨m, hm, he⟩ := hP
  obtain ⟨m2, e2, n2⟩ := near_wmoment hu hu1 hq (k := 2) (a := ps.length + 4) (by norm_num) hw hW hB (by omega)
  obtain ⟨m3, e3, n3⟩ := near_wmoment hu hu1 hq (k := 3) (a := ps.length + 4) (by norm_num) hw hW hB (by omega)
  have n1 : Near w e m (Spec.wmean (ps.map pairVal)) B := ⟨abs_wmean_le hw hW hB, he⟩
  have hne : Spec.wtotal (ps.map pairVal) ≠ 0 := by rw [wtotal_val]; exact hW.ne'
  rw [Spec.wvariance, wcentralTwo_eq hne] at hv
  rw [wcentralThree_eq hne] at hγ
  obtain ⟨q, hq, hr⟩ := skewnessWith_err hr hw1 hc (hroot.mono h0 huw hw1) n2 n3 n1 (γ := γ) hσ hv
    (by rw [hδ]; ring_nf) hγ hη hθ hsmall
  exact ⟨q, by rw [weightedSkewnessRunWith, e2, e3, hm]; exact hq, hr⟩

/-- **C97** With the weighted sum divided by the sum of the weights. -/
theorem C97_weighted_lazy (hu : R.RelErr u) (hu1 : u < 1) {w : K} (hq : 1 + w = (1 + u) / (1 - u)) (hw1 : w ≤ 1)
    {root : Fl R → Res (Fl R)} (hroot : IsRoot root u)
    {B : K} (ps : List (Fl R × Fl R)) (hw : ∀ p ∈ ps, 0 ≤ p.2.val)
    (hW : 0 < (ps.map fun p => p.2.val).sum) (hB : ∀ p ∈ ps, |p.1.val| ≤ B) (hc : R.Counts 3)
    {σ γ δ η θ : K} (hσ : 0 < σ) (hv : σ ^ 2 = Spec.wvariance (ps.map pairVal))
    (hγ : γ = Spec.wcentralMoment 3 (ps.map pairVal) / σ ^ 3) (hδ : δ = (1 + w) ^ (4 * ps.length + 14) - 1)
    (hη : η = 2 * δ * (B / σ) ^ 2) (hθ : θ = (1 + w) ^ 2 * (1 + η) ^ 2 - 1) (hsmall : 2 * θ ≤ 1) :
    ∃ q : Fl R, weightedSkewnessRunWith root (lazyWMean 0) ps = .val q ∧
      |q.val - γ| ≤ (1 + w) * (12 * δ * (B / σ) ^ 3 + 2 * θ * |γ|) + w * |γ| :=
  C97_weighted_over hu hu1 hq hw1 hroot (lazyWMean 0) ps hw hW hB hc (near_lazyWMean hu hu1 hq hw hW hB) hσ hv hγ
    (by rw [hδ]; ring_nf) hη hθ hsmall

/-- **C97** With the weighted mean updated recursively; the weight of the first sample has to be positive. -/
theorem C97_weighted_immediate (hu : R.RelErr u) (hu1 : u < 1) {w : K} (hq : 1 + w = (1 + u) / (1 - u)) (hw1 : w ≤ 1)
    {root : Fl R → Res (Fl R)} (hroot : IsRoot root u)
    {B : K} (ps : List (Fl R × Fl R)) (h : ps ≠ []) (hw : ∀ p ∈ ps, 0 ≤ p.2.val) (hf : ∀ p ∈ ps.head?, 0 < p.2.val)
    (hB : ∀ p ∈ ps, |p.1.val| ≤ B) (hc : R.Counts 3)
    {σ γ δ η θ : K} (hσ : 0 < σ) (hv : σ ^ 2 = Spec.wvariance (ps.map pairVal))
    (hγ : γ = Spec.wcentralMoment 3 (ps.map pairVal) / σ ^ 3) (hδ : δ = (1 + w) ^ (13 * ps.length + 8) - 1)
    (hη : η = 2 * δ * (B / σ) ^ 2) (hθ : θ = (1 + w) ^ 2 * (1 + η) ^ 2 - 1) (hsmall : 2 * θ ≤ 1) :
    ∃ q : Fl R, weightedSkewnessRunWith root (immWMean 0) ps = .val q ∧
      |q.val - γ| ≤ (1 + w) * (12 * δ * (B / σ) ^ 3 + 2 * θ * |γ|) + w * |γ| :=
  C97_weighted_over hu hu1 hq hw1 hroot (immWMean 0) ps hw (sum_weights_pos h hw hf) hB hc (near_immWMean hu hu1 hq h hw hf hB) hσ hv
    hγ (by rw [hδ]; ring_nf) hη hθ hsmall

/-! ## error_of<mean> -/

/-- From an approximate variance: the root of the variance divided by `n - 1`. -/
theorem errorOfMean_err (hu : R.RelErr u) (hu1 : u ≤ 1) {root : Fl R → Res (Fl R)} (hroot : IsRoot root u)
    (w : ℕ) (xs : List (Fl R)) (h : 2 ≤ xs.length) (hw : xs.length < 2 ^ w) (hc : R.Counts xs.length) {v : Fl R} {V η s : K}
    (hs : 0 < s) (hV : s ^ 2 = V / (xs.length - 1)) (he : |v.val - V| ≤ η * V) (hη : (1 + u) * (1 + η) ≤ 2) :
    ∃ q : Fl R, errorOfMeanWith root w (.val v) (xs.foldl (fun c _ => countStep c) (countInit w)) = .val q ∧
      |q.val - s| ≤ ((1 + u) ^ 2 * (1 + η) - 1) * s := by
  have hne : xs ≠ [] := by rintro rfl; simp at h
  have hcast : ((xs.length - 1 : ℕ) : K) = (xs.length : K) - 1 := by
    rw [Nat.cast_sub (by omega)]; simp
  have hpos : (0 : K) < (xs.length : K) - 1 := by
    rw [← hcast]; exact_mod_cast (by omega : 0 < xs.length - 1)
  have hn : (((xs.length - 1 : ℕ) : ℕ) : Fl R).val = (xs.length : K) - 1 := by
    rw [Fl.val_natCast, hc _ (by omega), hcast]
  have hn0 : (((xs.length - 1 : ℕ) : ℕ) : Fl R) ≠ 0 := by
    intro e
    rw [Fl.eq_zero_iff, hn] at e
    linarith
  have hV0 : 0 < V := by
    have : 0 < V / ((xs.length : K) - 1) := by rw [← hV]; positivity
    exact (div_pos_iff_of_pos_right hpos).1 this
  have d : |v.val / ((xs.length : K) - 1) - s ^ 2| ≤ η * s ^ 2 := by
    rw [hV, ← sub_div, abs_div, abs_of_pos hpos, ← mul_div_assoc]
    exact div_le_div_of_nonneg_right he hpos.le
  have d2 : |(v / ((xs.length - 1 : ℕ) : Fl R)).val - s ^ 2| ≤ ((1 + u) * (1 + η) - 1) * s ^ 2 := by
    rw [Fl.val_div, hn]
    have := hu.round (le_of_eq (abs_of_pos (by positivity : 0 < s ^ 2))) d
    exact this
  obtain ⟨r, er, hr⟩ := hroot.err hu.nonneg hu1 hs rfl (by linarith) d2
  refine ⟨r, ?_, hr.trans (le_of_eq ?_)⟩
  · simp only [errorOfMeanWith, Res.val_bind, count_sub_one_toNat w xs hne hw, fdiv, if_neg hn0]
    exact er
  · ring

theorem variance_val {xs : List (Fl R)} (h : xs ≠ []) : Spec.variance (xs.map Fl.val)
    = (xs.map fun x => x.val ^ 2).sum / xs.length - ((xs.map Fl.val).sum / xs.length) ^ 2 := by
  rw [Spec.variance, centralTwo_eq (by simpa using h), specRawMoment_val, specMean_val, pow_two ((xs.map Fl.val).sum / _)]

/-- **C97** `error_of<tag::mean>` (from `lazy_variance`), the mean being a sum divided by the count: if `η`, about `2(2n+4)u` times
the ratio of mean square and variance `V`, is less than 1, the result differs from the root `s` of `V / (n-1)` by the relative
error `(1+u)² (1+η) - 1` at most. -/
theorem C97_error_lazy (hu : R.RelErr u) (hu1 : u ≤ 1) {root : Fl R → Res (Fl R)} (hroot : IsRoot root u)
    (w : ℕ) (xs : List (Fl R)) (h : 2 ≤ xs.length) (hw : xs.length < 2 ^ w) (hc : R.Counts xs.length) {V η s : K}
    (hV : V = Spec.variance (xs.map Fl.val)) (hs : 0 < s) (hs2 : s ^ 2 = V / (xs.length - 1))
    (hη : η = 2 * ((1 + u) ^ (2 * xs.length + 4) - 1) * (Spec.rawMoment 2 (xs.map Fl.val) / V)) (h1 : (1 + u) * (1 + η) ≤ 2) :
    ∃ q : Fl R, errorOfMeanRunWith root w (lazyMean 0) xs = .val q ∧ |q.val - s| ≤ ((1 + u) ^ 2 * (1 + η) - 1) * s := by
  have hne : xs ≠ [] := by rintro rfl; simp at h
  obtain ⟨v, ev, he⟩ := C79_lazy hu xs hne hc
  rw [← variance_val hne, ← hV, ← specRawMoment_val] at he
  rw [errorOfMeanRunWith, ev]
  refine errorOfMean_err hu hu1 hroot w xs h hw hc hs hs2 (he.trans (le_of_eq ?_)) h1
  have hV0 : V ≠ 0 := by
    rintro rfl
    rw [zero_div] at hs2
    exact hs.ne' (pow_eq_zero_iff two_ne_zero |>.1 hs2)
  rw [hη]
  field_simp

/-- **C97** The same with the mean updated recursively. -/
theorem C97_error_lazy_immediate (hu : R.RelErr u) (hu1 : u ≤ 1) {root : Fl R → Res (Fl R)} (hroot : IsRoot root u)
    (w : ℕ) (xs : List (Fl R)) (h : 2 ≤ xs.length) (hw : xs.length < 2 ^ w) (hc : R.Counts xs.length) {V η s : K}
    (hV : V = Spec.variance (xs.map Fl.val)) (hs : 0 < s) (hs2 : s ^ 2 = V / (xs.length - 1))
    (hη : η = 2 * ((1 + u) ^ (6 * xs.length + 2) - 1) * (Spec.rawMoment 2 (xs.map Fl.val) / V)) (h1 : (1 + u) * (1 + η) ≤ 2) :
    ∃ q : Fl R, errorOfMeanRunWith root w (immMean 0) xs = .val q ∧ |q.val - s| ≤ ((1 + u) ^ 2 * (1 + η) - 1) * s := by
  have hne : xs ≠ [] := by rintro rfl; simp at h
  obtain ⟨v, ev, he⟩ := C79_lazy_immediate hu xs hne hc
  rw [← variance_val hne, ← hV, ← specRawMoment_val] at he
  rw [errorOfMeanRunWith, ev]
  refine errorOfMean_err hu hu1 hroot w xs h hw hc hs hs2 (he.trans (le_of_eq ?_)) h1
  have hV0 : V ≠ 0 := by
    rintro rfl
    rw [zero_div] at hs2
    exact hs.ne' (pow_eq_zero_iff two_ne_zero |>.1 hs2)
  rw [hη]
  field_simp

/-- **C97** `error_of<tag::immediate_mean>` (from `variance`, which is updated recursively), the mean being updated recursively. -/
theorem C97_error_immediate (hu : R.RelErr u) (hu1 : u ≤ 1) {root : Fl R → Res (Fl R)} (hroot : IsRoot root u)
    (w : ℕ) {B : K} (xs : List (Fl R)) (h : 2 ≤ xs.length) (hw : xs.length < 2 ^ w) (hc : R.Counts xs.length)
    (hB : ∀ x ∈ xs, |x.val| ≤ B) {V η s : K}
    (hV : V = Spec.variance (xs.map Fl.val)) (hs : 0 < s) (hs2 : s ^ 2 = V / (xs.length - 1))
    (hη : η = ((1 + u) ^ (29 * xs.length) - 1) * (B ^ 2 / V)) (h1 : (1 + u) * (1 + η) ≤ 2) :
    ∃ q : Fl R, errorOfImmMeanRunWith root w (immMean 0) xs = .val q ∧ |q.val - s| ≤ ((1 + u) ^ 2 * (1 + η) - 1) * s := by
  have hne : xs ≠ [] := by rintro rfl; simp at h
  obtain ⟨v, ev, he⟩ := C79_immediate hu xs hne hc hB
  rw [← variance_val hne, ← hV] at he
  rw [errorOfImmMeanRunWith, ev]
  refine errorOfMean_err hu hu1 hroot w xs h hw hc hs hs2 (he.trans (le_of_eq ?_)) h1
  have hV0 : V ≠ 0 := by
    rintro rfl
    rw [zero_div] at hs2
    exact hs.ne' (pow_eq_zero_iff two_ne_zero |>.1 hs2)
  rw [hη]
  field_simp

/-- **C97** The same with the mean as a sum divided by the count. -/
theorem C97_error_immediate_lazy (hu : R.RelErr u) (hu1 : u ≤ 1) {root : Fl R → Res (Fl R)} (hroot : IsRoot root u)
    (w : ℕ) {B : K} (xs : List (Fl R)) (h : 2 ≤ xs.length) (hw : xs.length < 2 ^ w) (hc : R.Counts xs.length)
    (hB : ∀ x ∈ xs, |x.val| ≤ B) {V η s : K}
    (hV : V = Spec.variance (xs.map Fl.val)) (hs : 0 < s) (hs2 : s ^ 2 = V / (xs.length - 1))
    (hη : η = ((1 + u) ^ (13 * xs.length + 8) - 1) * (B ^ 2 / V)) (h1 : (1 + u) * (1 + η) ≤ 2) :
    ∃ q : Fl R, errorOfImmMeanRunWith root w (lazyMean 0) xs = .val q ∧ |q.val - s| ≤ ((1 + u) ^ 2 * (1 + η) - 1) * s := by
  have hne : xs ≠ [] := by rintro rfl; simp at h
  obtain ⟨v, ev, he⟩ := C79_immediate_lazy hu xs hne hc hB
  rw [← variance_val hne, ← hV] at he
  rw [errorOfImmMeanRunWith, ev]
  refine errorOfMean_err hu hu1 hroot w xs h hw hc hs hs2 (he.trans (le_of_eq ?_)) h1
  have hV0 : V ≠ 0 := by
    rintro rfl
    rw [zero_div] at hs2
    exact hs.ne' (pow_eq_zero_iff two_ne_zero |>.1 hs2)
  rw [hη]
  field_simp

/-! ## where it fails -/

/-- **C97** Where `lazy_variance` is computed as a negative number, `skewness` and `error_of<mean>` are not numbers. -/
theorem C97_negative_variance {root : Fl R → Res (Fl R)} (hroot : IsRoot root u) (hu : R.RelErr u) (hu1 : u < 1)
    (P : MeanProvider (Fl R) (Fl R)) (w : ℕ) (xs : List (Fl R)) (h : 2 ≤ xs.length) (hw : xs.length < 2 ^ w)
    (hc : R.Counts xs.length) {v : Fl R} (hv : lazyVarianceRun P 0 xs = .val v) (hv0 : v.val < 0) :
    skewnessRunWith root P xs = .nonfinite ∧ errorOfMeanRunWith root w P xs = .nonfinite := by
  have hne : xs ≠ [] := by rintro rfl; simp at h
  constructor
  · obtain ⟨m3, e3, -⟩ := C60_moment hu (N := 3) (by norm_num) xs hne hc
    obtain ⟨m2, e2, -⟩ := C60_moment hu (N := 2) (by norm_num) xs hne hc
    rw [lazyVarianceRun, e2] at hv
    rw [skewnessRunWith, e2, e3]
    cases em : P.read (P.run xs) with
    | val m =>
      rw [em] at hv
      have : m2 - m * m = v := by
        simpa [lazyVarianceResult, Res.val_bind, Res.pure_eq] using hv
      simp only [skewnessWith, Res.val_bind, this, hroot.neg v hv0]
      rfl
    | _ => rw [em] at hv; cases hv
  · have hcast : ((xs.length - 1 : ℕ) : K) = (xs.length : K) - 1 := by
      rw [Nat.cast_sub (by omega)]; simp
    have hpos : (0 : K) < (xs.length : K) - 1 := by
      rw [← hcast]; exact_mod_cast (by omega : 0 < xs.length - 1)
    have hn : (((xs.length - 1 : ℕ) : ℕ) : Fl R).val = (xs.length : K) - 1 := by
      rw [Fl.val_natCast, hc _ (by omega), hcast]
    have hn0 : (((xs.length - 1 : ℕ) : ℕ) : Fl R) ≠ 0 := by
      intro e
      rw [Fl.eq_zero_iff, hn] at e
      linarith
    have hq : (v / (((xs.length - 1 : ℕ) : ℕ) : Fl R)).val < 0 := by
      rw [Fl.val_div, hn]
      have hx : v.val / ((xs.length : K) - 1) < 0 := div_neg_of_neg_of_pos hv0 hpos
      have e := hu (v.val / ((xs.length : K) - 1))
      rw [abs_of_neg hx, abs_le] at e
      nlinarith [e.2]
    rw [errorOfMeanRunWith, hv]
    simp only [errorOfMeanWith, Res.val_bind, count_sub_one_toNat w xs hne hw, fdiv, if_neg hn0]
    exact hroot.neg _ hq

/-- **C97, the condition matters**: `100000001, 100000002, 100000002` have the variance `2/9`; with `double`s `lazy_variance` is
`-2`, and `skewness` and `error_of<mean>` are not numbers, whatever the root. -/
theorem C97_offset_fails {root : Fl double → Res (Fl double)} (hroot : IsRoot root (1 / 2 ^ 53)) :
    let xs : List (Fl double) := [100000001, 100000002, 100000002].map (Fl.ofK double)
    Spec.variance (xs.map Fl.val) = 2 / 9 ∧
    (skewnessRunWith root (lazyMean 0) xs = .nonfinite ∧ errorOfMeanRunWith root 64 (lazyMean 0) xs = .nonfinite) ∧
    (skewnessRunWith root (immMean 0) xs = .nonfinite ∧ errorOfMeanRunWith root 64 (immMean 0) xs = .nonfinite) := by
  refine ⟨by decide +kernel, ?_, ?_⟩
  · exact C97_negative_variance hroot double_relErr (by norm_num) (lazyMean 0) 64 _ (by simp) (by simp)
      (double_counts (by simp)) (v := Fl.ofK double (-2)) (by decide +kernel) (by decide +kernel)
  · exact C97_negative_variance hroot double_relErr (by norm_num) (immMean 0) 64 _ (by simp) (by simp)
      (double_counts (by simp)) (v := Fl.ofK double (-2)) (by decide +kernel) (by decide +kernel)

/-! ## examples -/

/-- There is such a root for `double`. -/
theorem exists_double_root : ∃ root : Fl double → Res (Fl double), IsRoot root (1 / 2 ^ 52) := by
  have key : ∀ x : Fl double, 0 ≤ x.val → ∃ r : Fl double, 0 ≤ r.val ∧
      (1 - 1 / 2 ^ 52) ^ 2 * x.val ≤ r.val ^ 2 ∧ r.val ^ 2 ≤ (1 + 1 / 2 ^ 52) ^ 2 * x.val := by
    intro x hx
    rcases hx.eq_or_lt with e | hx
    · refine ⟨0, ?_, ?_, ?_⟩ <;> rw [Fl.val_zero] <;> simp [← e]
    · have hx' : (0 : ℝ) < (x.val : ℝ) := by exact_mod_cast hx
      have hs : 0 < Real.sqrt (x.val : ℝ) := Real.sqrt_pos.2 hx'
      obtain ⟨q, q1, q2⟩ := exists_rat_btwn (show (1 - 1 / 2 ^ 53) * Real.sqrt (x.val : ℝ) < Real.sqrt (x.val : ℝ) by
        nlinarith [show (0 : ℝ) < 1 / 2 ^ 53 by positivity])
      have hq0 : (0 : ℝ) < q := lt_trans (mul_pos (by norm_num) hs) q1
      have hq0' : 0 < q := by exact_mod_cast hq0
      have e := double_relErr q
      rw [abs_of_pos hq0', abs_le] at e
      have l : (1 - 1 / 2 ^ 53) * q ≤ (Fl.ofK double q).val := by
        show _ ≤ double.rd q
        linarith [e.1]
      have r : (Fl.ofK double q).val ≤ (1 + 1 / 2 ^ 53) * q := by
        show double.rd q ≤ _
        linarith [e.2]
      have r0 : 0 ≤ (Fl.ofK double q).val := le_trans (mul_nonneg (by norm_num) hq0'.le) l
      have lR : (1 - 1 / 2 ^ 53) * (q : ℝ) ≤ ((Fl.ofK double q).val : ℝ) := by
        have := (Rat.cast_le (K := ℝ)).2 l
        push_cast at this
        exact this
      have rR : ((Fl.ofK double q).val : ℝ) ≤ (1 + 1 / 2 ^ 53) * (q : ℝ) := by
        have := (Rat.cast_le (K := ℝ)).2 r
        push_cast at this
        exact this
      have r0R : (0 : ℝ) ≤ ((Fl.ofK double q).val : ℝ) := by exact_mod_cast r0
      refine ⟨Fl.ofK double q, r0, ?_, ?_⟩
      · have : (1 - 1 / 2 ^ 52) * Real.sqrt (x.val : ℝ) ≤ ((Fl.ofK double q).val : ℝ) := by
          refine le_trans ?_ ((mul_le_mul_of_nonneg_left q1.le (by norm_num)).trans lR)
          rw [← mul_assoc]
          exact mul_le_mul_of_nonneg_right (by norm_num) hs.le
        have := pow_le_pow_left₀ (mul_nonneg (by norm_num) hs.le) this 2
        rw [mul_pow, Real.sq_sqrt hx'.le] at this
        rw [← Rat.cast_le (K := ℝ)]
        push_cast
        exact this
      · have : ((Fl.ofK double q).val : ℝ) ≤ (1 + 1 / 2 ^ 52) * Real.sqrt (x.val : ℝ) := by
          refine rR.trans ((mul_le_mul_of_nonneg_left q2.le (by norm_num)).trans ?_)
          exact mul_le_mul_of_nonneg_right (by norm_num) hs.le
        have := pow_le_pow_left₀ r0R this 2
        rw [mul_pow, Real.sq_sqrt hx'.le] at this
        rw [← Rat.cast_le (K := ℝ)]
        push_cast
        exact this
  classical
  refine ⟨fun x => if h : 0 ≤ x.val then .val (key x h).choose else .nonfinite, ⟨fun x hx => dif_neg (not_le.2 hx), fun x hx => ?_⟩⟩
  exact ⟨_, dif_pos hx, (key x hx).choose_spec⟩

theorem double_relErr' : double.RelErr (1 / 2 ^ 52) := fun x =>
  (double_relErr x).trans (mul_le_mul_of_nonneg_right (by norm_num) (abs_nonneg _))

example {root : Fl double → Res (Fl double)} (hroot : IsRoot root (1 / 2 ^ 52)) :
    ∃ q : Fl double, skewnessRunWith root (lazyMean 0) [4, -1, -1, -1, -1] = .val q ∧ |q.val - 3 / 2| ≤ 1 / 10 ^ 10 := by
  obtain ⟨q, hq, hr⟩ := C97_skewness_lazy (B := 4) (σ := 2) (γ := 3 / 2) double_relErr' (by norm_num) hroot [4, -1, -1, -1, -1]
    (by simp) (by
      intro x hx
      fin_cases hx <;> decide +kernel) (double_counts (by norm_num)) (by norm_num) (by decide +kernel) (by decide +kernel) rfl
    rfl rfl (by norm_num)
  refine ⟨q, hq, hr.trans ?_⟩
  norm_num

example {root : Fl double → Res (Fl double)} (hroot : IsRoot root (1 / 2 ^ 52)) :
    ∃ q : Fl double, errorOfImmMeanRunWith root 64 (immMean 0) [4, -1, -1, -1, -1] = .val q ∧ |q.val - 1| ≤ 1 / 10 ^ 10 := by
  obtain ⟨q, hq, hr⟩ := C97_error_immediate (B := 4) (V := 4) (s := 1) double_relErr' (by norm_num) hroot 64 [4, -1, -1, -1, -1]
    (by simp) (by simp) (double_counts (by norm_num)) (by
      intro x hx
      fin_cases hx <;> decide +kernel) (by decide +kernel) (by norm_num) (by norm_num) rfl (by norm_num)
  refine ⟨q, hq, hr.trans ?_⟩
  norm_num

end Acc
