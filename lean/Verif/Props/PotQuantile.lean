import Verif.Props.Pot
import Verif.Props.WTail
import Verif.Props.Tail
import Mathlib.Analysis.SpecialFunctions.Integrals.Basic

/-!
# Properties of `pot_quantile` and `pot_tail_mean` (C31)

Exact real arithmetic with the real power function.
-/

set_option linter.unusedSectionVars false

namespace Acc

open MeasureTheory intervalIntegral

theorem realPow_pos {x : ℝ} (h : 0 < x) (y : ℝ) : realPow x y = .val (x ^ y) := by
  unfold realPow
  rw [if_pos h]

/-- Quantile of the fitted tail as a function of the share beyond it, in mirrored coordinates. -/
noncomputable def potQ (u b x L : ℝ) : ℝ := u + b / x * (L ^ (-x) - 1)

theorem tailLevel_eq_share (side : Side) (p : ℝ) : tailLevel side p = Spec.share side p := by
  cases side <;> rfl

theorem potQuantileValue_val (side : Side) {u b x p : ℝ} (hx : x ≠ 0) (hp : 0 < Spec.share side p) :
    potQuantileValue realPow side (.val u, .val b, .val x) p
      = .val (Spec.mirrored side (potQ u b x (Spec.share side p))) := by
  unfold potQuantileValue
  simp only [Res.val_bind, fdiv_ne hx, tailLevel_eq_share, realPow_pos hp, Res.pure_eq, potSign_mul]
  rfl

theorem potTailMeanValue_val (side : Side) {b x p : ℝ} (hx1 : x ≠ 1) (hp : 0 < Spec.share side p)
    (Q : ℝ) :
    potTailMeanValue realPow side (.val b) (.val x) (.val (Spec.mirrored side Q)) p
      = .val (Spec.mirrored side (Q + b / (1 - x) * Spec.share side p ^ (-x))) := by
  have h1 : x - 1 ≠ 0 := sub_ne_zero.2 hx1
  have h2 : 1 - x ≠ 0 := sub_ne_zero.2 hx1.symm
  unfold potTailMeanValue
  simp only [Res.val_bind, fdiv_ne h1, tailLevel_eq_share, realPow_pos hp, Res.pure_eq, Res.val.injEq]
  have h3 : ∀ z : ℝ, z / (x - 1) = -(z / (1 - x)) := by
    intro z
    rw [← neg_sub 1 x, div_neg]
  cases side <;> simp only [potSign, Spec.mirrored, h3] <;> ring

section sets
variable {X S : Type} {M : RMachine X Unit S (PotFit ℝ)} {xs : List X} {r : PotFit ℝ}

/-- The three reads of the fit see the same fit. -/
theorem Fits.quantile (h : Fits M xs r) (pw : ℝ → ℝ → Res ℝ) (side : Side) (qs : List ℝ) (p : ℝ) :
    (potQuantileSet pw side M).answer (onlyPushes xs ++ qs.map .query) p
      = .val (potQuantileValue pw side r p) := by
  obtain ⟨s, t, e, e1, e2⟩ := h
  have e' : (potQuantileSet pw side M).exec (potQuantileSet pw side M).init (onlyPushes xs) = .val s := by
    rw [← e]
    have : ∀ (l : List X) (s0 : S), (potQuantileSet pw side M).exec s0 (onlyPushes l)
        = M.exec s0 (onlyPushes l) := by
      intro l
      induction l with
      | nil => intro s0; rfl
      | cons x l ih =>
        intro s0
        simp only [onlyPushes, List.map_cons, RMachine.exec, RMachine.exec1] at ih ⊢
        have hp : (potQuantileSet pw side M).push s0 x = M.push s0 x := rfl
        rw [hp]
        congr 1
        funext s1
        exact ih s1
    exact this xs _
  have hq1 : ∀ p, (potQuantileSet pw side M).query s p = .val (t, potQuantileValue pw side r p) := by
    intro p
    simp only [potQuantileSet, potQuantile, potRead, e1, e2, Res.val_bind, Res.pure_eq]
  have hq2 : ∀ p, (potQuantileSet pw side M).query t p = .val (t, potQuantileValue pw side r p) := by
    intro p
    simp only [potQuantileSet, potQuantile, potRead, e2, Res.val_bind, Res.pure_eq]
  unfold RMachine.answer
  rw [RMachine.exec_append, e', Res.val_bind]
  cases qs with
  | nil => simp only [List.map_nil, RMachine.exec, Res.val_bind, hq1, Res.pure_eq]
  | cons q qs =>
    have ht : ∀ qs : List ℝ, (potQuantileSet pw side M).exec t (qs.map .query) = .val t := by
      intro qs
      induction qs with
      | nil => rfl
      | cons q qs ih =>
        simp only [List.map_cons, RMachine.exec, RMachine.exec1, hq2, Res.val_bind, Res.pure_eq, ih]
    simp only [List.map_cons, RMachine.exec, RMachine.exec1, hq1, Res.val_bind, Res.pure_eq, ht, hq2]

theorem Fits.tailMean (h : Fits M xs r) (pw : ℝ → ℝ → Res ℝ) (side : Side) (qs : List ℝ) (p : ℝ) :
    (potTailMeanSet pw side M).answer (onlyPushes xs ++ qs.map .query) p
      = .val (potTailMeanValue pw side r.2.1 r.2.2 (potQuantileValue pw side r p) p) := by
  obtain ⟨s, t, e, e1, e2⟩ := h
  have e' : (potTailMeanSet pw side M).exec (potTailMeanSet pw side M).init (onlyPushes xs) = .val s := by
    rw [← e]
    have : ∀ (l : List X) (s0 : S), (potTailMeanSet pw side M).exec s0 (onlyPushes l)
        = M.exec s0 (onlyPushes l) := by
      intro l
      induction l with
      | nil => intro s0; rfl
      | cons x l ih =>
        intro s0
        simp only [onlyPushes, List.map_cons, RMachine.exec, RMachine.exec1] at ih ⊢
        have hp : (potTailMeanSet pw side M).push s0 x = M.push s0 x := rfl
        rw [hp]
        congr 1
        funext s1
        exact ih s1
    exact this xs _
  have hq1 : ∀ p, (potTailMeanSet pw side M).query s p
      = .val (t, potTailMeanValue pw side r.2.1 r.2.2 (potQuantileValue pw side r p) p) := by
    intro p
    simp only [potTailMeanSet, potTailMean, potQuantile, potRead, e1, e2, Res.val_bind, Res.pure_eq]
  have hq2 : ∀ p, (potTailMeanSet pw side M).query t p
      = .val (t, potTailMeanValue pw side r.2.1 r.2.2 (potQuantileValue pw side r p) p) := by
    intro p
    simp only [potTailMeanSet, potTailMean, potQuantile, potRead, e2, Res.val_bind, Res.pure_eq]
  unfold RMachine.answer
  rw [RMachine.exec_append, e', Res.val_bind]
  cases qs with
  | nil => simp only [List.map_nil, RMachine.exec, Res.val_bind, hq1, Res.pure_eq]
  | cons q qs =>
    have ht : ∀ qs : List ℝ, (potTailMeanSet pw side M).exec t (qs.map .query) = .val t := by
      intro qs
      induction qs with
      | nil => rfl
      | cons q qs ih =>
        simp only [List.map_cons, RMachine.exec, RMachine.exec1, hq2, Res.val_bind, Res.pure_eq, ih]
    simp only [List.map_cons, RMachine.exec, RMachine.exec1, hq1, Res.val_bind, Res.pure_eq, ht, hq2]

end sets

/-! ## The fitted tail -/

/-- Written with the parameters before the transformation by the fraction `f`. -/
theorem potQ_eq {u beta xi f L : ℝ} (hxi : xi ≠ 0) (hf : 0 < f) (hL : 0 < L) :
    potQ (u - beta * f ^ xi * (f ^ (-xi) - 1) / xi) (beta * f ^ xi) xi L
      = u + beta / xi * ((L / f) ^ (-xi) - 1) := by
  have h1 : f ^ xi * f ^ (-xi) = 1 := by rw [← Real.rpow_add hf]; simp
  have h2 : (L / f) ^ (-xi) = L ^ (-xi) * f ^ xi := by
    rw [Real.div_rpow hL.le hf.le, Real.rpow_neg hf.le xi, div_inv_eq_mul]
  unfold potQ
  rw [h2]
  field_simp
  linear_combination (-beta) * h1

theorem paretoTail_potQ {u beta xi f L : ℝ} (hb : beta ≠ 0) (hxi : xi ≠ 0) (hf : 0 < f) (hL : 0 < L) :
    f * Spec.paretoTail u beta xi
      (potQ (u - beta * f ^ xi * (f ^ (-xi) - 1) / xi) (beta * f ^ xi) xi L) = L := by
  rw [potQ_eq hxi hf hL]
  unfold Spec.paretoTail
  have hq : 0 < L / f := div_pos hL hf
  have h1 : 1 + xi * (u + beta / xi * ((L / f) ^ (-xi) - 1) - u) / beta = (L / f) ^ (-xi) := by
    field_simp
    ring
  rw [h1, ← Real.rpow_mul hq.le]
  have h2 : -xi * (-1 / xi) = 1 := by field_simp
  rw [h2, Real.rpow_one]
  field_simp

theorem potQ_strictAnti {u b xi L L' : ℝ} (hb : 0 < b) (hxi : xi ≠ 0) (hL : 0 < L) (h : L < L') :
    potQ u b xi L' < potQ u b xi L := by
  unfold potQ
  rcases lt_or_gt_of_ne hxi with hneg | hpos
  · have h1 : L ^ (-xi) < L' ^ (-xi) := Real.rpow_lt_rpow hL.le h (by linarith)
    have h2 : b / xi < 0 := div_neg_of_pos_of_neg hb hneg
    nlinarith
  · have h1 : L' ^ (-xi) < L ^ (-xi) := Real.rpow_lt_rpow_of_neg hL h (by linarith)
    have h2 : 0 < b / xi := div_pos hb hpos
    nlinarith

/-- The mean over the tail. -/
theorem potQ_integral {u b xi L : ℝ} (hxi : xi ≠ 0) (hx1 : xi < 1) (hL : 0 < L) :
    ∫ l in (0 : ℝ)..L, potQ u b xi l = L * (potQ u b xi L + b / (1 - xi) * L ^ (-xi)) := by
  have hi : IntervalIntegrable (fun l : ℝ => l ^ (-xi)) volume 0 L :=
    intervalIntegrable_rpow' (by linarith)
  have hI : ∫ l in (0 : ℝ)..L, l ^ (-xi) = L ^ (1 - xi) / (1 - xi) := by
    rw [integral_rpow (Or.inl (by linarith))]
    rw [show -xi + 1 = 1 - xi by ring, Real.zero_rpow (by linarith), sub_zero]
  have hL1 : L ^ (1 - xi) = L * L ^ (-xi) := by
    rw [show (1 : ℝ) - xi = 1 + -xi by ring, Real.rpow_add hL, Real.rpow_one]
  have h2 : 1 - xi ≠ 0 := by linarith
  have hfun : (fun l : ℝ => potQ u b xi l) = fun l => (u - b / xi) + b / xi * l ^ (-xi) := by
    funext l; unfold potQ; ring
  rw [hfun, intervalIntegral.integral_add (by simp) (hi.const_mul _), intervalIntegral.integral_const,
    intervalIntegral.integral_const_mul, hI, hL1]
  unfold potQ
  simp only [smul_eq_mul, sub_zero]
  field_simp
  ring

/-- Average over the tail beyond the `p`-quantile, in terms of the probabilities: right tail. -/
theorem integral_right {u b xi p : ℝ} (hxi : xi ≠ 0) (hx1 : xi < 1) (hp : p < 1) :
    ∫ s in p..1, potQ u b xi (1 - s)
      = (1 - p) * (potQ u b xi (1 - p) + b / (1 - xi) * (1 - p) ^ (-xi)) := by
  rw [← potQ_integral hxi hx1 (by linarith), intervalIntegral.integral_comp_sub_left]
  simp

/-- What a fitted tail with positive scale promises: `Q p` is the extracted quantile, `T p` the extracted tail
mean. -/
structure Spec.TailLaw (side : Side) (u beta xi f : ℝ) (Q T : ℝ → ℝ) : Prop where
  /-- the share of the distribution beyond the quantile is the requested one -/
  inverts : ∀ p, 0 < Spec.share side p →
    f * Spec.paretoTail u beta xi (Spec.mirrored side (Q p)) = Spec.share side p
  /-- quantiles grow with the probability -/
  mono : ∀ p p', 0 < Spec.share side p → 0 < Spec.share side p' → p < p' → Q p < Q p'
  /-- the tail mean is the average of the quantiles beyond -/
  average : ∀ p, 0 < Spec.share side p → Spec.share side p * T p =
    match side with
    | .right => ∫ s in p..1, Q s
    | .left => ∫ s in (0 : ℝ)..p, Q s

theorem tailLaw {u beta xi f : ℝ} (side : Side) (hb : 0 < beta) (hxi : xi ≠ 0) (hx1 : xi < 1) (hf : 0 < f) :
    Spec.TailLaw side u beta xi f
      (fun p => Spec.mirrored side
        (potQ (u - beta * f ^ xi * (f ^ (-xi) - 1) / xi) (beta * f ^ xi) xi (Spec.share side p)))
      (fun p => Spec.mirrored side
        (potQ (u - beta * f ^ xi * (f ^ (-xi) - 1) / xi) (beta * f ^ xi) xi (Spec.share side p)
          + beta * f ^ xi / (1 - xi) * Spec.share side p ^ (-xi))) := by
  have hbb : 0 < beta * f ^ xi := mul_pos hb (Real.rpow_pos_of_pos hf _)
  generalize hU : u - beta * f ^ xi * (f ^ (-xi) - 1) / xi = U
  refine ⟨?_, ?_, ?_⟩
  · intro p hp
    have hmm : ∀ z : ℝ, Spec.mirrored side (Spec.mirrored side z) = z := by
      intro z; cases side <;> simp [Spec.mirrored]
    simp only [hmm]
    rw [← hU]
    exact paretoTail_potQ hb.ne' hxi hf hp
  · intro p p' hp hp' hlt
    cases side with
    | right =>
      simp only [Spec.mirrored, Spec.share] at *
      exact potQ_strictAnti hbb hxi hp' (by linarith)
    | left =>
      simp only [Spec.mirrored, Spec.share] at *
      exact neg_lt_neg (potQ_strictAnti hbb hxi hp hlt)
  · intro p hp
    cases side with
    | right =>
      simp only [Spec.mirrored, Spec.share] at *
      rw [integral_right hxi hx1 (by linarith)]
    | left =>
      simp only [Spec.mirrored, Spec.share] at *
      rw [intervalIntegral.integral_neg, potQ_integral hxi hx1 hp]
      ring

/-- The sets answer with quantile `Q` and tail mean `T`, at every admissible probability, any number of times. -/
def Answers {X S : Type} (side : Side) (M : RMachine X Unit S (PotFit ℝ)) (xs : List X) (Q T : ℝ → ℝ) : Prop :=
  ∀ (qs : List ℝ) (p : ℝ), 0 < Spec.share side p →
    (potQuantileSet realPow side M).answer (onlyPushes xs ++ qs.map .query) p = .val (.val (Q p)) ∧
    (potTailMeanSet realPow side M).answer (onlyPushes xs ++ qs.map .query) p = .val (.val (T p))

theorem Fits.answers {X S : Type} {M : RMachine X Unit S (PotFit ℝ)} {xs : List X} {u b x : ℝ} (side : Side)
    (h : Fits M xs (.val u, .val b, .val x)) (hx : x ≠ 0) (hx1 : x < 1) :
    Answers side M xs (fun p => Spec.mirrored side (potQ u b x (Spec.share side p)))
      (fun p => Spec.mirrored side (potQ u b x (Spec.share side p)
        + b / (1 - x) * Spec.share side p ^ (-x))) := by
  intro qs p hp
  rw [h.quantile, h.tailMean]
  simp only [potQuantileValue_val side hx hp, potTailMeanValue_val side hx1.ne hp, and_self]

theorem momentBeta_pos {u m v : ℝ} (h : u < m) (hv : 0 < v) : 0 < Spec.momentBeta u m v := by
  have h1 : 0 < m - u := by linarith
  have h2 : 0 ≤ (m - u) ^ 2 / v := by positivity
  unfold Spec.momentBeta
  have h3 : 0 < (m - u) / 2 := by linarith
  have h4 : 0 < 1 + (m - u) ^ 2 / v := by linarith
  exact mul_pos h3 h4

theorem momentXi_lt {u m v : ℝ} (h : u < m) (hv : 0 < v) : Spec.momentXi u m v < 1 / 2 := by
  have h1 : 0 < m - u := by linarith
  have h2 : 0 < (m - u) ^ 2 / v := by positivity
  unfold Spec.momentXi
  linarith

theorem mean_gt {u : ℝ} {ys : List ℝ} (hne : ys ≠ []) (h : ∀ y ∈ ys, u < y) : u < Spec.mean ys := by
  have hn : (0 : ℝ) < ys.length := by exact_mod_cast List.length_pos_of_ne_nil hne
  unfold Spec.mean
  rw [lt_div_iff₀ hn]
  clear hn
  induction ys with
  | nil => exact absurd rfl hne
  | cons y ys ih =>
    have hy := h y (by simp)
    by_cases h0 : ys = []
    · subst h0; simpa using hy
    · have := ih h0 fun z hz => h z (by simp [hz])
      simp only [List.length_cons, List.sum_cons, Nat.cast_add, Nat.cast_one]
      linarith [mul_add u (ys.length : ℝ) 1]

theorem exceedances_gt (side : Side) (thr : ℝ) (xs : List ℝ) :
    ∀ y ∈ Spec.exceedances side thr xs, Spec.mirrored side thr < y := by
  intro y hy
  cases side with
  | right =>
    simp only [Spec.exceedances, List.mem_filter, decide_eq_true_eq] at hy
    exact hy.2
  | left =>
    simp only [Spec.exceedances, List.mem_map, List.mem_filter, decide_eq_true_eq] at hy
    obtain ⟨x, ⟨-, h⟩, rfl⟩ := hy
    simp only [Spec.mirrored]
    linarith

theorem variance_pos {ys : List ℝ} (h : Spec.variance ys ≠ 0) : 0 < Spec.variance ys := by
  refine lt_of_le_of_ne ?_ h.symm
  unfold Spec.variance Spec.centralMoment
  refine div_nonneg (List.sum_nonneg ?_) (by positivity)
  intro z hz
  obtain ⟨x, -, rfl⟩ := List.mem_map.1 hz
  positivity

/-- **C31** Samples `xs` are pushed into a set with `pot_quantile` and `pot_tail_mean` over a threshold value; the
samples beyond the threshold are not all equal and the moment estimate `xi` of the shape is not 0.  Then the
extracted quantiles invert the fitted generalized Pareto tail (scaled by the fraction `f` of samples beyond the
threshold), increase strictly with the probability, and the extracted tail mean is the average of the
quantiles beyond, for all probabilities in the tail and any number of extractions. -/
theorem C31_pot (side : Side) (thr : ℝ) (xs : List ℝ) {u f m v xi : ℝ}
    (hu : u = Spec.mirrored side thr)
    (hf : f = ((Spec.exceedances side thr xs).length : ℝ) / (xs.length : ℝ))
    (hm : m = Spec.mean (Spec.exceedances side thr xs))
    (hv : v = Spec.variance (Spec.exceedances side thr xs)) (hv0 : v ≠ 0)
    (hxi : xi = Spec.momentXi u m v) (hxi0 : xi ≠ 0) :
    ∃ Q T : ℝ → ℝ, Answers side (potSet realPow side thr) xs Q T ∧
      Spec.TailLaw side u (Spec.momentBeta u m v) xi f Q T := by
  have hne : Spec.exceedances side thr xs ≠ [] := by
    intro h0
    rw [h0] at hv
    exact hv0 (by rw [hv]; simp [Spec.variance, Spec.centralMoment])
  have hvp : 0 < v := by rw [hv] at hv0 ⊢; exact variance_pos hv0
  have hum : u < m := by
    rw [hu, hm]
    exact mean_gt hne (exceedances_gt side thr xs)
  have hb := momentBeta_pos hum hvp
  have hx1 : xi < 1 := by rw [hxi]; linarith [momentXi_lt hum hvp]
  have hf0 : 0 < f := by
    have h1 := List.length_pos_of_ne_nil hne
    have h2 : xs ≠ [] := by
      rintro rfl
      apply hne
      cases side <;> rfl
    have h3 := List.length_pos_of_ne_nil h2
    rw [hf]
    have h1' : (0 : ℝ) < (Spec.exceedances side thr xs).length := by exact_mod_cast h1
    have h3' : (0 : ℝ) < xs.length := by exact_mod_cast h3
    positivity
  have hfit := pot_fits realPow side thr xs hu hf hne hm hv hv0 hxi hxi0 (realPow_pos hf0 xi)
    (realPow_pos hf0 (-xi))
  exact ⟨_, _, hfit.answers side hxi0 hx1, tailLaw side hb hxi0 hx1 hf0⟩

/-! ## The end of the tail -/

/-- What is extracted at the probability beyond which nothing is left (1 on the right, 0 on the left). -/
def AnswersEnd {X S : Type} (side : Side) (M : RMachine X Unit S (PotFit ℝ)) (xs : List X) (r : Res ℝ) : Prop :=
  ∀ (qs : List ℝ) (p : ℝ), Spec.share side p = 0 →
    (potQuantileSet realPow side M).answer (onlyPushes xs ++ qs.map .query) p = .val r ∧
    (potTailMeanSet realPow side M).answer (onlyPushes xs ++ qs.map .query) p = .val r

theorem Fits.answersEnd {X S : Type} {M : RMachine X Unit S (PotFit ℝ)} {xs : List X} {u beta xi f : ℝ} (side : Side)
    (h : Fits M xs (.val (u - beta * f ^ xi * (f ^ (-xi) - 1) / xi), .val (beta * f ^ xi), .val xi))
    (hf : 0 < f) (hx : xi ≠ 0) (hx1 : xi < 1) :
    AnswersEnd side M xs (if xi < 0 then .val (Spec.mirrored side (u - beta / xi)) else .nonfinite) := by
  intro qs p hp
  have h1 : f ^ xi * f ^ (-xi) = 1 := by rw [← Real.rpow_add hf]; simp
  rw [h.quantile, h.tailMean]
  rcases lt_or_gt_of_ne hx with hneg | hpos
  · have hpw : realPow 0 (-xi) = .val 0 := by
      unfold realPow
      rw [if_neg (lt_irrefl _), if_pos rfl, if_pos (by linarith)]
    have hq : potQuantileValue realPow side (.val (u - beta * f ^ xi * (f ^ (-xi) - 1) / xi), .val (beta * f ^ xi),
        .val xi) p = .val (Spec.mirrored side (u - beta / xi)) := by
      unfold potQuantileValue
      simp only [Res.val_bind, fdiv_ne hx, tailLevel_eq_share, hp, hpw, Res.pure_eq, potSign_mul]
      congr 2
      field_simp
      linear_combination (-beta) * h1
    rw [hq, if_pos hneg]
    refine ⟨rfl, ?_⟩
    unfold potTailMeanValue
    simp only [Res.val_bind, fdiv_ne (sub_ne_zero.2 hx1.ne), tailLevel_eq_share, hp, hpw, Res.pure_eq, mul_zero, sub_zero]
  · have hpw : realPow 0 (-xi) = .nonfinite := by
      unfold realPow
      rw [if_neg (lt_irrefl _), if_pos rfl, if_neg (by linarith), if_neg (by linarith)]
    have hq : potQuantileValue realPow side (.val (u - beta * f ^ xi * (f ^ (-xi) - 1) / xi), .val (beta * f ^ xi),
        .val xi) p = .nonfinite := by
      unfold potQuantileValue
      simp only [Res.val_bind, fdiv_ne hx, tailLevel_eq_share, hp, hpw]
      rfl
    rw [hq, if_neg (not_lt.2 hpos.le)]
    exact ⟨rfl, rfl⟩

/-- **C31** At the end of the tail (probability 1 on the right, 0 on the left): with a negative shape the fitted
distribution ends at `u - beta / xi`, and this is both the quantile and the tail mean; with a positive shape it has no
end, and the result is not finite. -/
theorem C31_end (side : Side) (thr : ℝ) (xs : List ℝ) {u m v xi : ℝ}
    (hu : u = Spec.mirrored side thr)
    (hm : m = Spec.mean (Spec.exceedances side thr xs))
    (hv : v = Spec.variance (Spec.exceedances side thr xs)) (hv0 : v ≠ 0)
    (hxi : xi = Spec.momentXi u m v) (hxi0 : xi ≠ 0) :
    AnswersEnd side (potSet realPow side thr) xs
      (if xi < 0 then .val (Spec.mirrored side (u - Spec.momentBeta u m v / xi)) else .nonfinite) := by
  have hne : Spec.exceedances side thr xs ≠ [] := by
    intro h0
    rw [h0] at hv
    exact hv0 (by rw [hv]; simp [Spec.variance, Spec.centralMoment])
  have hvp : 0 < v := by rw [hv] at hv0 ⊢; exact variance_pos hv0
  have hum : u < m := by
    rw [hu, hm]
    exact mean_gt hne (exceedances_gt side thr xs)
  have hx1 : xi < 1 := by rw [hxi]; linarith [momentXi_lt hum hvp]
  have hf0 : 0 < ((Spec.exceedances side thr xs).length : ℝ) / (xs.length : ℝ) := by
    have h1 := List.length_pos_of_ne_nil hne
    have h2 : xs ≠ [] := by
      rintro rfl
      apply hne
      cases side <;> rfl
    have h3 := List.length_pos_of_ne_nil h2
    have h1' : (0 : ℝ) < (Spec.exceedances side thr xs).length := by exact_mod_cast h1
    have h3' : (0 : ℝ) < xs.length := by exact_mod_cast h3
    positivity
  have hfit := pot_fits realPow side thr xs hu rfl hne hm hv hv0 hxi hxi0 (realPow_pos hf0 xi)
    (realPow_pos hf0 (-xi))
  exact hfit.answersEnd side hf0 hxi0 hx1

/-! ## Weighted samples -/

theorem sum_zero_all {l : List ℝ} (h : ∀ x ∈ l, 0 ≤ x) (h0 : l.sum = 0) : ∀ x ∈ l, x = 0 := by
  induction l with
  | nil => simp
  | cons a l ih =>
    have ha := h a (by simp)
    have hl : 0 ≤ l.sum := List.sum_nonneg fun x hx => h x (by simp [hx])
    rw [List.sum_cons] at h0
    intro x hx
    rcases List.mem_cons.1 hx with rfl | hx
    · linarith
    · exact ih (fun x hx => h x (by simp [hx])) (by linarith) x hx

/-- Values not below `u` that are not all equal have a mean above `u`. -/
theorem wmean_gt {u : ℝ} {ys : List (ℝ × ℝ)} (hw : ∀ y ∈ ys, 0 ≤ y.2) (hv : Spec.wvariance ys ≠ 0)
    (h : ∀ y ∈ ys, u ≤ y.1) : u < Spec.wmean ys := by
  by_contra hc
  rw [not_lt] at hc
  apply hv
  by_cases hW : Spec.wtotal ys = 0
  · unfold Spec.wvariance Spec.wcentralMoment
    rw [hW, div_zero]
  · have hsum : (ys.map fun p => p.2 * (p.1 - Spec.wmean ys)).sum = 0 := by
      have e : ∀ (l : List (ℝ × ℝ)) (c : ℝ), (l.map fun p => p.2 * (p.1 - c)).sum
          = (l.map fun p => p.2 * p.1).sum - c * Spec.wtotal l := by
        intro l c
        induction l with
        | nil => simp [Spec.wtotal]
        | cons a l ih => simp only [List.map_cons, List.sum_cons, ih, Spec.wtotal]; ring
      rw [e]
      unfold Spec.wmean
      field_simp
      ring
    have hz := sum_zero_all (l := ys.map fun p => p.2 * (p.1 - Spec.wmean ys)) (by
      intro x hx
      obtain ⟨y, hy, rfl⟩ := List.mem_map.1 hx
      exact mul_nonneg (hw y hy) (by linarith [h y hy])) hsum
    unfold Spec.wvariance Spec.wcentralMoment
    have : (ys.map fun p => p.2 * (p.1 - Spec.wmean ys) ^ 2) = ys.map fun _ => (0 : ℝ) := by
      apply List.map_congr_left
      intro y hy
      have := hz _ (List.mem_map.2 ⟨y, hy, rfl⟩)
      rw [pow_two, ← mul_assoc, this, zero_mul]
    rw [this]
    simp

theorem wvariance_pos {ys : List (ℝ × ℝ)} (hw : ∀ y ∈ ys, 0 ≤ y.2) (h : Spec.wvariance ys ≠ 0) :
    0 < Spec.wvariance ys := by
  refine lt_of_le_of_ne ?_ h.symm
  unfold Spec.wvariance Spec.wcentralMoment Spec.wtotal
  refine div_nonneg (List.sum_nonneg ?_) (List.sum_nonneg ?_)
  · intro z hz
    obtain ⟨x, hx, rfl⟩ := List.mem_map.1 hz
    exact mul_nonneg (hw x hx) (by positivity)
  · intro z hz
    obtain ⟨x, hx, rfl⟩ := List.mem_map.1 hz
    exact hw x hx

theorem mean_gt' {u : ℝ} {ys : List ℝ} (hv : Spec.variance ys ≠ 0) (h : ∀ y ∈ ys, u ≤ y) :
    u < Spec.mean ys := by
  have htot : Spec.wtotal (ys.map fun y => (y, (1 : ℝ))) = ys.length := by
    simp [Spec.wtotal, Function.comp_def]
  have hm : Spec.wmean (ys.map fun y => (y, (1 : ℝ))) = Spec.mean ys := by
    simp [Spec.wmean, Spec.mean, htot, Function.comp_def]
  rw [← hm]
  refine wmean_gt ?_ ?_ ?_
  · intro y hy
    obtain ⟨z, -, rfl⟩ := List.mem_map.1 hy
    simp
  · intro h0
    apply hv
    rw [← h0]
    simp [Spec.wvariance, Spec.wcentralMoment, hm, htot, Spec.variance, Spec.centralMoment,
      Function.comp_def]
  · intro y hy
    obtain ⟨z, hz, rfl⟩ := List.mem_map.1 hy
    exact h z hz

/-- **C31**, weighted samples with non-negative weights. -/
theorem C31_weighted_pot (side : Side) (thr : ℝ) (ps : List (ℝ × ℝ)) {u f m v xi : ℝ}
    (hw : ∀ q ∈ ps, 0 ≤ q.2)
    (hu : u = Spec.mirrored side thr)
    (hf : f = Spec.wtotal (Spec.wexceedances side thr ps) / Spec.wtotal ps)
    (hm : m = Spec.wmean (Spec.wexceedances side thr ps))
    (hv : v = Spec.wvariance (Spec.wexceedances side thr ps)) (hv0 : v ≠ 0)
    (hxi : xi = Spec.momentXi u m v) (hxi0 : xi ≠ 0) :
    ∃ Q T : ℝ → ℝ, Answers side (wpotSet realPow side thr) ps Q T ∧
      Spec.TailLaw side u (Spec.momentBeta u m v) xi f Q T := by
  have hmem : ∀ y ∈ Spec.wexceedances side thr ps, 0 ≤ y.2 ∧ u < y.1 := by
    intro y hy
    rw [hu]
    cases side with
    | right =>
      simp only [Spec.wexceedances, List.mem_filter, decide_eq_true_eq] at hy
      exact ⟨hw y hy.1, hy.2⟩
    | left =>
      simp only [Spec.wexceedances, List.mem_map, List.mem_filter, decide_eq_true_eq] at hy
      obtain ⟨x, ⟨hx, h⟩, rfl⟩ := hy
      simp only [Spec.mirrored]
      exact ⟨hw x hx, by linarith⟩
  have hne : Spec.wtotal (Spec.wexceedances side thr ps) ≠ 0 := by
    intro h0
    apply hv0
    rw [hv]
    unfold Spec.wvariance Spec.wcentralMoment
    rw [h0, div_zero]
  have hle : Spec.wtotal (Spec.wexceedances side thr ps) ≤ Spec.wtotal ps := by
    have e : Spec.wtotal (Spec.wexceedances side thr ps)
        = Spec.wtotal (ps.filter fun p => match side with
          | .right => decide (thr < p.1) | .left => decide (p.1 < thr)) := by
      cases side <;> simp [Spec.wexceedances, Spec.wtotal, Function.comp_def]
    rw [e]
    exact totalWeight_filter_le (wt := fun w => w) hw _
  have hEp : 0 < Spec.wtotal (Spec.wexceedances side thr ps) := by
    refine lt_of_le_of_ne (List.sum_nonneg ?_) hne.symm
    intro z hz
    obtain ⟨x, hx, rfl⟩ := List.mem_map.1 hz
    exact (hmem x hx).1
  have hWp : 0 < Spec.wtotal ps := lt_of_lt_of_le hEp hle
  have hvp : 0 < v := by rw [hv] at hv0 ⊢; exact wvariance_pos (fun y hy => (hmem y hy).1) hv0
  have hum : u < m := by
    rw [hm]
    exact wmean_gt (fun y hy => (hmem y hy).1) (by rw [← hv]; exact hv0) fun y hy => (hmem y hy).2.le
  have hb := momentBeta_pos hum hvp
  have hx1 : xi < 1 := by rw [hxi]; linarith [momentXi_lt hum hvp]
  have hf0 : 0 < f := by rw [hf]; exact div_pos hEp hWp
  have hfit := wpot_fits realPow side thr ps hu hf hWp.ne' hne hm hv hv0 hxi hxi0 (realPow_pos hf0 xi)
    (realPow_pos hf0 (-xi))
  exact ⟨_, _, hfit.answers side hxi0 hx1, tailLaw side hb hxi0 hx1 hf0⟩

/-! ## Threshold given as a probability -/

theorem geExt_mirrored {side : Side} {a b : ℝ} (h : Spec.geExt side a b) :
    Spec.mirrored side b ≤ Spec.mirrored side a := by
  cases side
  · simp only [Spec.geExt, Spec.mirrored] at *; linarith
  · simpa [Spec.geExt, Spec.mirrored] using h

theorem pairwise_getLast_le {l : List ℝ} {side : Side} (h : l.Pairwise (Spec.geExt side)) {y : ℝ}
    (hy : l.getLast? = some y) : ∀ x ∈ l, Spec.mirrored side y ≤ Spec.mirrored side x := by
  intro x hx
  obtain ⟨i, hi, rfl⟩ := List.mem_iff_getElem.1 hx
  rw [List.getLast?_eq_getElem?] at hy
  obtain ⟨hl, rfl⟩ := List.getElem?_eq_some_iff.1 hy
  rcases Nat.lt_or_eq_of_le (show i ≤ l.length - 1 by omega) with hlt | heq
  · exact geExt_mirrored (List.pairwise_iff_getElem.mp h i _ hi hl hlt)
  · subst heq; exact le_rfl

/-- **C31**, threshold given as a probability. -/
theorem C31_pot_prob {V : Type} (H : HeapImpl ℕ) (side : Side) (hasNaN : Bool) {k : ℕ}
    (hk : 1 ≤ k) (v0 : V) (tp : ℝ) (htp : 0 < Spec.share side tp) (ps : List (ℝ × V)) {n : ℕ}
    (hn : Spec.tailCount side ps.length tp = n) (h1 : 1 ≤ n) (h2 : n < min k ps.length)
    {y u m v xi : ℝ} (hy : (Spec.byExtremity side (ps.map Prod.fst))[n - 1]? = some y)
    (hu : u = Spec.mirrored side y)
    (hm : m = Spec.mean ((Spec.extremes side n (ps.map Prod.fst)).map (Spec.mirrored side)))
    (hv : v = Spec.variance ((Spec.extremes side n (ps.map Prod.fst)).map (Spec.mirrored side)))
    (hv0 : v ≠ 0) (hxi : xi = Spec.momentXi u m v) (hxi0 : xi ≠ 0) :
    ∃ Q T : ℝ → ℝ, Answers side (potProbSet realPow H side hasNaN k v0 tp) ps Q T ∧
      Spec.TailLaw side u (Spec.momentBeta u m v) xi (Spec.share side tp) Q T := by
  have hvp : 0 < v := by rw [hv] at hv0 ⊢; exact variance_pos hv0
  have hEl : (Spec.extremes side n (ps.map Prod.fst)).length = n := by
    rw [extremes_length, List.length_map]; omega
  have hlast : (Spec.extremes side n (ps.map Prod.fst)).getLast? = some y := by
    rw [List.getLast?_eq_getElem?, hEl]
    unfold Spec.extremes
    rw [List.getElem?_take_of_lt (by omega)]
    exact hy
  have hum : u < m := by
    rw [hm]
    refine mean_gt' (by rw [← hv]; exact hv0) ?_
    intro z hz
    obtain ⟨x, hx, rfl⟩ := List.mem_map.1 hz
    rw [hu]
    exact pairwise_getLast_le (C15_extremes side n _).2.1 hlast x hx
  have hb := momentBeta_pos hum hvp
  have hx1 : xi < 1 := by rw [hxi]; linarith [momentXi_lt hum hvp]
  have hfit := potProb_fits realPow H side hasNaN hk v0 tp ps hn h1 h2 hy hu rfl hm hv hv0 hxi hxi0
    (realPow_pos htp xi) (realPow_pos htp (-xi))
  exact ⟨_, _, hfit.answers side hxi0 hx1, tailLaw side hb hxi0 hx1 htp⟩

/-- **C31**, weighted samples and threshold given as a probability: for the selection `sel` described in
`C30_weighted_prob_fit_partial`. -/
theorem C31_weighted_pot_prob (H : HeapImpl ℕ) (side : Side) (hasNaN : Bool) {k : ℕ} (hk : 1 ≤ k) (tp : ℝ)
    (htp : 0 < Spec.share side tp) (ps : List (ℝ × ℝ)) (hw : ∀ q ∈ ps, 0 ≤ q.2)
    (hT : 0 < Spec.wtotal ps) {w : List ℝ}
    (hx : extractTailVariate H side k (0 : ℝ) (0 : ℝ) (onlyPushes ps) = .val w)
    (hc : Spec.wtotal ps * Spec.share side tp ≤ w.sum) :
    ∃ (sel : List (ℝ × ℝ)) (y : ℝ), sel.Subperm ps ∧ sel.map Prod.snd = w.take sel.length ∧
      sel.map Prod.fst = Spec.extremes side sel.length (ps.map Prod.fst) ∧
      Spec.wtotal ps * Spec.share side tp ≤ Spec.wtotal sel ∧
      (∀ j < sel.length, Spec.wtotal (sel.take j) < Spec.wtotal ps * Spec.share side tp) ∧
      (sel.map Prod.fst).getLast? = some y ∧
      ∀ (u m v xi : ℝ), u = Spec.mirrored side y →
        m = Spec.wmean (sel.map fun p => (Spec.mirrored side p.1, p.2)) →
        v = Spec.wvariance (sel.map fun p => (Spec.mirrored side p.1, p.2)) → v ≠ 0 →
        xi = Spec.momentXi u m v → xi ≠ 0 →
        ∃ Q T : ℝ → ℝ, Answers side (wpotProbSet realPow H side hasNaN k tp) ps Q T ∧
          Spec.TailLaw side u (Spec.momentBeta u m v) xi (Spec.share side tp) Q T := by
  obtain ⟨sel, y, g1, g2, g3, g4, g5, g6, g7⟩ :=
    wpotProb_fits realPow H side hasNaN hk tp ps (mul_pos hT htp) hx hc
  refine ⟨sel, y, g1, g2, g3, g4, g5, g6, ?_⟩
  intro u m v xi hu hm hv hv0 hxi hxi0
  have hws : ∀ z ∈ sel.map fun p => (Spec.mirrored side p.1, p.2), 0 ≤ z.2 := by
    intro z hz
    obtain ⟨x, hx, rfl⟩ := List.mem_map.1 hz
    exact hw x (g1.subset hx)
  have hvp : 0 < v := by rw [hv] at hv0 ⊢; exact wvariance_pos hws hv0
  have hum : u < m := by
    rw [hm]
    refine wmean_gt hws (by rw [← hv]; exact hv0) ?_
    intro z hz
    obtain ⟨x, hx, rfl⟩ := List.mem_map.1 hz
    rw [hu]
    refine pairwise_getLast_le (l := sel.map Prod.fst) ?_ g6 x.1 (List.mem_map.2 ⟨x, hx, rfl⟩)
    rw [g3]
    exact (C15_extremes side _ _).2.1
  have hb := momentBeta_pos hum hvp
  have hx1 : xi < 1 := by rw [hxi]; linarith [momentXi_lt hum hvp]
  have hfit := g7 u m v xi _ _ hu hm hv hv0 hxi hxi0 (realPow_pos htp xi) (realPow_pos htp (-xi))
  exact ⟨_, _, hfit.answers side hxi0 hx1, tailLaw side hb hxi0 hx1 htp⟩

/-! ## Concrete cases -/

/-- Hypotheses of `C31_pot`. -/
example : Spec.exceedances Side.right (1 : ℝ) [3, 5, 1, 7] = [3, 5, 7] ∧
    Spec.variance ([3, 5, 7] : List ℝ) = 8 / 3 ∧ Spec.momentXi (1 : ℝ) 5 (8 / 3) = -5 / 2 := by
  refine ⟨?_, ?_, ?_⟩ <;>
    norm_num [Spec.exceedances, Spec.mean, Spec.variance, Spec.centralMoment, Spec.momentXi]
/-- Hypotheses of `C31_weighted_pot`. -/
example : Spec.wexceedances Side.right (1 : ℝ) [(3, 1), (5, 2), (1, 4)] = [(3, 1), (5, 2)] ∧
    Spec.wvariance ([(3, 1), (5, 2)] : List (ℝ × ℝ)) = 8 / 9 := by
  refine ⟨?_, ?_⟩ <;>
    norm_num [Spec.wexceedances, Spec.wmean, Spec.wtotal, Spec.wvariance, Spec.wcentralMoment]

end Acc
