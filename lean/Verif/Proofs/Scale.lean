import Verif.Model.Round
import Verif.Model.Root
import Verif.Model.Rolling
import Verif.Model.Weighted
import Mathlib.Data.List.Forall2

/-!
# Multiplication by a factor that commutes with rounding

Helpers for C99.
-/

set_option linter.unusedSectionVars false

namespace Acc

universe u v w

/-- The same outcome, and related values. -/
def Res.Lift {α : Type u} {β : Type v} (r : α → β → Prop) : Res α → Res β → Prop
  | .val a, .val b => r a b
  | .nonfinite, .nonfinite => True
  | .thrown, .thrown => True
  | .ub, .ub => True
  | .diverges, .diverges => True
  | _, _ => False

namespace Res.Lift

theorem bind {α β α' β' : Type u} {r : α → β → Prop} {q : α' → β' → Prop} {x : Res α} {y : Res β}
    (h : Res.Lift r x y) {f : α → Res α'} {g : β → Res β'} (k : ∀ a b, r a b → Res.Lift q (f a) (g b)) :
    Res.Lift q (x >>= f) (y >>= g) := by
  cases x <;> cases y <;> first | exact h.elim | exact trivial | exact k _ _ h

theorem refl {α : Type u} {r : α → α → Prop} (hr : ∀ a, r a a) (x : Res α) : Res.Lift r x x := by
  cases x <;> first | exact trivial | exact hr _

end Res.Lift

/-- Two folds keep a relation. -/
theorem foldl_rel {S : Type u} {T : Type v} {A : Type w} {B : Type*} {r : S → T → Prop} {q : A → B → Prop} {f : S → A → S}
    {g : T → B → T} (h : ∀ s t a b, r s t → q a b → r (f s a) (g t b)) {l : List A} {m : List B} (hl : List.Forall₂ q l m)
    {s : S} {t : T} (hs : r s t) : r (l.foldl f s) (m.foldl g t) := by
  induction hl generalizing s t with
  | nil => exact hs
  | cons a _ ih => exact ih (h _ _ _ _ hs a)

section
variable {K : Type} [Field K] [LinearOrder K] [IsStrictOrderedRing K] {R : Rounding K} {s t : K}

/-- Multiplication by `s` commutes with rounding: powers of two in a binary format, in the absence of overflow and
underflow, and their negatives. -/
def Rounding.Exact (R : Rounding K) (s : K) : Prop := s ≠ 0 ∧ ∀ x, R.rd (s * x) = s * R.rd x

namespace Rounding.Exact

theorem one : R.Exact 1 := ⟨one_ne_zero, fun x => by rw [one_mul, one_mul]⟩

theorem mul (hs : R.Exact s) (ht : R.Exact t) : R.Exact (s * t) :=
  ⟨mul_ne_zero hs.1 ht.1, fun x => by rw [mul_assoc, hs.2, ht.2, mul_assoc]⟩

theorem pow (hs : R.Exact s) (n : ℕ) : R.Exact (s ^ n) := by
  induction n with
  | zero => simpa using one
  | succ n ih => rw [pow_succ]; exact ih.mul hs

theorem div (hs : R.Exact s) (ht : R.Exact t) : R.Exact (s / t) := by
  refine ⟨div_ne_zero hs.1 ht.1, fun x => ?_⟩
  have h := ht.2 (s / t * x)
  have ht0 := ht.1
  rw [show t * (s / t * x) = s * x by field_simp, hs.2] at h
  rw [div_mul_eq_mul_div s t (R.rd x), eq_div_iff ht0, mul_comm, h]

end Rounding.Exact

/-- The second number is the first times `s`. -/
def Scaled (s : K) (a b : Fl R) : Prop := b.val = s * a.val

/-- Multiplication by `s`, as the type does it. -/
def Fl.scale (s : K) (a : Fl R) : Fl R := Fl.ofK R (s * a.val)

theorem scaled_scale (hs : R.Exact s) (a : Fl R) : Scaled s a (Fl.scale s a) := by
  unfold Scaled Fl.scale
  rw [Fl.val_ofK, hs.2, Fl.rd_val]

theorem Scaled.eq (hs : R.Exact s) {a b : Fl R} (h : Scaled s a b) : b = Fl.scale s a :=
  Fl.ext (by rw [h, ← scaled_scale hs a])

/-- In terms of an equation between outcomes. -/
theorem Res.Lift.eq_map (hs : R.Exact s) {x y : Res (Fl R)} (h : Res.Lift (Scaled s) x y) : y = Fl.scale s <$> x := by
  cases x <;> cases y <;> first | exact h.elim | rfl | exact congrArg Res.val (Scaled.eq hs h)

namespace Scaled
variable {a b a' b' : Fl R}

theorem zero : Scaled s (0 : Fl R) 0 := by simp [Scaled]
theorem self : Scaled 1 a a := by simp [Scaled]

theorem congr (h : Scaled s a b) (e : s = t) : Scaled t a b := e ▸ h

theorem add (hs : R.Exact s) (h : Scaled s a b) (k : Scaled s a' b') : Scaled s (a + a') (b + b') := by
  unfold Scaled at *
  rw [Fl.val_add, Fl.val_add, h, k, ← mul_add, hs.2]

theorem sub (hs : R.Exact s) (h : Scaled s a b) (k : Scaled s a' b') : Scaled s (a - a') (b - b') := by
  unfold Scaled at *
  rw [Fl.val_sub, Fl.val_sub, h, k, ← mul_sub, hs.2]

theorem mul (hs : R.Exact s) (ht : R.Exact t) (h : Scaled s a b) (k : Scaled t a' b') : Scaled (s * t) (a * a') (b * b') := by
  unfold Scaled at *
  rw [Fl.val_mul, Fl.val_mul, h, k, mul_mul_mul_comm, (hs.mul ht).2]

theorem eq_zero_iff (hs : s ≠ 0) (h : Scaled s a b) : b = 0 ↔ a = 0 := by
  unfold Scaled at h
  rw [Fl.eq_zero_iff, Fl.eq_zero_iff, h, mul_eq_zero, or_iff_right hs]

theorem fdiv (hs : R.Exact s) (ht : R.Exact t) (h : Scaled s a b) (k : Scaled t a' b') :
    Res.Lift (Scaled (s / t)) (Acc.fdiv a a') (Acc.fdiv b b') := by
  by_cases h0 : a' = 0
  · have h0' := (k.eq_zero_iff ht.1).2 h0
    simp only [Acc.fdiv, h0, h0', if_true]
    trivial
  · have h0' : b' ≠ 0 := fun e => h0 ((k.eq_zero_iff ht.1).1 e)
    simp only [Acc.fdiv, h0, h0', if_false]
    show Scaled (s / t) (a / a') (b / b')
    unfold Scaled at *
    rw [Fl.val_div, Fl.val_div, h, k, mul_div_mul_comm, (hs.div ht).2]

/-- Division by a number that is not scaled. -/
theorem fdiv_self (hs : R.Exact s) (h : Scaled s a b) (n : Fl R) : Res.Lift (Scaled s) (Acc.fdiv a n) (Acc.fdiv b n) := by
  have := h.fdiv hs Rounding.Exact.one (self (a := n))
  rwa [div_one] at this

theorem mul_self (hs : R.Exact s) (h : Scaled s a b) (n : Fl R) : Scaled s (a * n) (b * n) := by
  have := h.mul hs Rounding.Exact.one (self (a := n))
  rwa [mul_one] at this

theorem self_mul (hs : R.Exact s) (h : Scaled s a b) (n : Fl R) : Scaled s (n * a) (n * b) := by
  have := (self (a := n)).mul Rounding.Exact.one hs h
  rwa [one_mul] at this

/-- Order, for positive and negative factors. -/
theorem lt_iff_pos (hs : 0 < s) (h : Scaled s a b) (k : Scaled s a' b') : b < b' ↔ a < a' := by
  unfold Scaled at *
  rw [Fl.lt_iff, Fl.lt_iff, h, k, mul_lt_mul_iff_right₀ hs]

theorem lt_iff_neg (hs : s < 0) (h : Scaled s a b) (k : Scaled s a' b') : b < b' ↔ a' < a := by
  unfold Scaled at *
  rw [Fl.lt_iff, Fl.lt_iff, h, k, mul_lt_mul_left_of_neg hs]

end Scaled

/-! ### Powers -/

theorem scaled_mpow (hs : R.Exact s) {a b : Fl R} (h : Scaled s a b) (n : ℕ) : Scaled (s ^ n) (mpow a n) (mpow b n) := by
  induction n using Nat.strong_induction_on with
  | _ n ih =>
    by_cases h0 : n = 0
    · subst h0; unfold mpow; rw [dif_pos rfl, dif_pos rfl, pow_zero]; exact Scaled.self
    by_cases h1 : n = 1
    · subst h1; unfold mpow; rw [dif_neg one_ne_zero, dif_neg one_ne_zero, dif_pos rfl, dif_pos rfl, pow_one]; exact h
    have k := ih (n / 2) (by omega)
    have k2 := k.mul (hs.pow _) (hs.pow _) k
    unfold mpow
    rw [dif_neg h0, dif_neg h0, dif_neg h1, dif_neg h1]
    by_cases h2 : n % 2 = 1
    · simp only [if_pos h2]
      refine (k2.mul ((hs.pow _).mul (hs.pow _)) hs h).congr ?_
      rw [← pow_add, ← pow_succ]
      congr 1
      omega
    · simp only [if_neg h2]
      refine k2.congr ?_
      rw [← pow_add]
      congr 1
      omega

/-! ### Means -/

/-- A provider of the mean whose result is multiplied by `s` when its samples are changed according to `q`. -/
def MeanProvider.Scales {X : Type} (P : MeanProvider X (Fl R)) (q : X → X → Prop) (s : K) : Prop :=
  ∃ r : P.St → P.St → Prop, r P.init P.init ∧ (∀ a b x y, r a b → q x y → r (P.push a x) (P.push b y)) ∧
    ∀ a b, r a b → Res.Lift (Scaled s) (P.read a) (P.read b)

theorem MeanProvider.Scales.read_run {X : Type} {P : MeanProvider X (Fl R)} {q : X → X → Prop} (h : P.Scales q s)
    {xs ys : List X} (hl : List.Forall₂ q xs ys) : Res.Lift (Scaled s) (P.read (P.run xs)) (P.read (P.run ys)) := by
  obtain ⟨r, h1, h2, h3⟩ := h
  exact h3 _ _ (foldl_rel (r := r) h2 hl h1)

theorem scales_lazyMean (hs : R.Exact s) : (lazyMean (0 : Fl R)).Scales (Scaled s) s := by
  refine ⟨fun a b => a.cnt = b.cnt ∧ Scaled s a.sum b.sum, ⟨rfl, Scaled.zero⟩, ?_, ?_⟩
  · rintro a b x y ⟨h1, h2⟩ h
    exact ⟨congrArg (· + 1) h1, h2.add hs h⟩
  · rintro a b ⟨h1, h2⟩
    show Res.Lift _ (fdiv _ _) (fdiv _ _)
    rw [h1]
    exact h2.fdiv_self hs _

theorem scales_immMean (hs : R.Exact s) : (immMean (0 : Fl R)).Scales (Scaled s) s := by
  refine ⟨fun a b => a.cnt = b.cnt ∧ Res.Lift (Scaled s) a.mean b.mean, ⟨rfl, Scaled.zero.fdiv_self hs _⟩, ?_, fun a b h => h.2⟩
  rintro a b x y ⟨h1, h2⟩ h
  refine ⟨congrArg (· + 1) h1, ?_⟩
  show Res.Lift _ (immMeanStep _ _ _) (immMeanStep _ _ _)
  unfold immMeanStep
  rw [h1]
  exact h2.bind fun m m' hm => ((hm.mul_self hs _).add hs h).fdiv_self hs _

/-- A pair of a sample and a weight, the one multiplied by `s`, the other by `t`. -/
def ScaledPair (s t : K) (p q : Fl R × Fl R) : Prop := Scaled s p.1 q.1 ∧ Scaled t p.2 q.2

theorem scaled_zero_mul {x : Fl R} : Scaled s (0 * x) (0 * x) := by
  unfold Scaled
  rw [Fl.val_mul, Fl.val_zero, zero_mul, R.zero, mul_zero]

theorem scales_lazyWMean (hs : R.Exact s) (ht : R.Exact t) : (lazyWMean (0 : Fl R)).Scales (ScaledPair s t) s := by
  refine ⟨fun a b => Scaled t a.sumW b.sumW ∧ Scaled (s * t) a.wsum b.wsum, ⟨Scaled.zero, scaled_zero_mul⟩, ?_, ?_⟩
  · rintro a b x y ⟨h1, h2⟩ ⟨hx, hw⟩
    exact ⟨h1.add ht hw, h2.add (hs.mul ht) (hx.mul hs ht hw)⟩
  · rintro a b ⟨h1, h2⟩
    have := h2.fdiv (hs.mul ht) ht h1
    rwa [mul_div_cancel_right₀ _ ht.1] at this

theorem scales_immWMean (hs : R.Exact s) (ht : R.Exact t) : (immWMean (0 : Fl R)).Scales (ScaledPair s t) s := by
  refine ⟨fun a b => Scaled t a.sumW b.sumW ∧ Res.Lift (Scaled s) a.mean b.mean,
    ⟨Scaled.zero, scaled_zero_mul.fdiv_self hs _⟩, ?_, fun a b h => h.2⟩
  rintro a b x y ⟨h1, h2⟩ ⟨hx, hw⟩
  have hW := h1.add ht hw
  refine ⟨hW, ?_⟩
  show Res.Lift _ (immWMeanStep _ _ _) (immWMeanStep _ _ _)
  unfold immWMeanStep
  refine h2.bind fun m m' hm => ?_
  have := ((hm.mul hs ht (hW.sub ht hw)).add (hs.mul ht) (hx.mul hs ht hw)).fdiv (hs.mul ht) ht hW
  rwa [mul_div_cancel_right₀ _ ht.1] at this

/-! ### Moments -/

theorem scaled_momentRun (hs : R.Exact s) (N : ℕ) {xs ys : List (Fl R)} (hl : List.Forall₂ (Scaled s) xs ys) :
    Res.Lift (Scaled (s ^ N)) (momentRun N 0 xs) (momentRun N 0 ys) := by
  unfold momentRun MomentSt.result
  have h : ∀ {a b : MomentSt (Fl R)}, (a.cnt = b.cnt ∧ Scaled (s ^ N) a.sum b.sum) →
      (xs.foldl (MomentSt.push N) a).cnt = (ys.foldl (MomentSt.push N) b).cnt ∧
        Scaled (s ^ N) (xs.foldl (MomentSt.push N) a).sum (ys.foldl (MomentSt.push N) b).sum := fun h0 =>
    foldl_rel (r := fun a b : MomentSt (Fl R) => a.cnt = b.cnt ∧ Scaled (s ^ N) a.sum b.sum)
      (fun a b x y h k => ⟨congrArg (· + 1) h.1, h.2.add (hs.pow N) (scaled_mpow hs k N)⟩) hl h0
  obtain ⟨h1, h2⟩ := h (a := MomentSt.init 0) (b := MomentSt.init 0) ⟨rfl, Scaled.zero⟩
  rw [h1]
  exact h2.fdiv_self (hs.pow N) _

theorem scaled_weightedMomentRun (hs : R.Exact s) (ht : R.Exact t) (N : ℕ) {ps qs : List (Fl R × Fl R)}
    (hl : List.Forall₂ (ScaledPair s t) ps qs) :
    Res.Lift (Scaled (s ^ N)) (weightedMomentRun N 0 ps) (weightedMomentRun N 0 qs) := by
  unfold weightedMomentRun
  obtain ⟨h1, h2⟩ := foldl_rel (r := fun a b : WMomentSt (Fl R) => Scaled t a.sumW b.sumW ∧ Scaled (t * s ^ N) a.sum b.sum)
    (f := WMomentSt.push N) (g := WMomentSt.push N)
    (fun a b x y h k => ⟨h.1.add ht k.2, h.2.add (ht.mul (hs.pow N)) (k.2.mul ht (hs.pow N) (scaled_mpow hs k.1 N))⟩) hl
    (s := ⟨0, 0 * 1⟩) (t := ⟨0, 0 * 1⟩) ⟨Scaled.zero, scaled_zero_mul⟩
  have := h2.fdiv (ht.mul (hs.pow N)) ht h1
  rwa [mul_div_cancel_left₀ _ ht.1] at this

/-! ### Variances and covariances -/

theorem scaled_lazyVarianceResult (hs : R.Exact s) {m2 m2' m m' : Res (Fl R)} (h2 : Res.Lift (Scaled (s ^ 2)) m2 m2')
    (h : Res.Lift (Scaled s) m m') : Res.Lift (Scaled (s ^ 2)) (lazyVarianceResult m2 m) (lazyVarianceResult m2' m') :=
  h.bind fun _ _ hm => h2.bind fun _ _ k => k.sub (hs.pow 2) ((hm.mul hs hs hm).congr (by ring))

theorem scaled_varianceStep (hs : R.Exact s) (n : ℕ) {m m' v v' : Res (Fl R)} {x y : Fl R} (h : Res.Lift (Scaled s) m m')
    (hv : Res.Lift (Scaled (s ^ 2)) v v') (k : Scaled s x y) :
    Res.Lift (Scaled (s ^ 2)) (varianceStep n m v x) (varianceStep n m' v' y) := by
  unfold varianceStep
  split_ifs
  · refine h.bind fun _ _ hm => hv.bind fun _ _ hv => ?_
    refine ((hv.mul_self (hs.pow 2) _).fdiv_self (hs.pow 2) _).bind fun _ _ ha => ?_
    have hd := k.sub hs hm
    refine (((hd.mul hs hs hd).congr (by ring : s * s = s ^ 2)).fdiv_self (hs.pow 2) _).bind fun _ _ hb => ?_
    exact ha.add (hs.pow 2) hb
  · exact hv

theorem scaled_varianceRun (hs : R.Exact s) {P : MeanProvider (Fl R) (Fl R)} (hP : P.Scales (Scaled s) s) {xs ys : List (Fl R)}
    (hl : List.Forall₂ (Scaled s) xs ys) : Res.Lift (Scaled (s ^ 2)) (varianceRun P 0 xs) (varianceRun P 0 ys) := by
  obtain ⟨r, h1, h2, h3⟩ := hP
  refine (foldl_rel (r := fun a b : VarianceSt P.St (Fl R) => r a.m b.m ∧ a.cnt = b.cnt ∧ Res.Lift (Scaled (s ^ 2)) a.var b.var)
    (f := VarianceSt.push P) (g := VarianceSt.push P) ?_ hl
    (s := VarianceSt.init P 0) (t := VarianceSt.init P 0) ⟨h1, rfl, Scaled.zero.fdiv_self (hs.pow 2) _⟩).2.2
  rintro a b x y ⟨i1, i2, i3⟩ k
  have hm := h2 _ _ _ _ i1 k
  refine ⟨hm, congrArg (· + 1) i2, ?_⟩
  show Res.Lift _ (varianceStep _ _ _ _) (varianceStep _ _ _ _)
  rw [i2]
  exact scaled_varianceStep hs _ (h3 _ _ hm) i3 k

theorem scaled_covarianceStep (hs : R.Exact s) (ht : R.Exact t) (n : ℕ) {mx mx' my my' c c' : Res (Fl R)} {x x' y y' : Fl R}
    (hx : Res.Lift (Scaled s) mx mx') (hy : Res.Lift (Scaled t) my my') (hc : Res.Lift (Scaled (s * t)) c c')
    (kx : Scaled s x x') (ky : Scaled t y y') :
    Res.Lift (Scaled (s * t)) (covarianceStep n mx my c x y) (covarianceStep n mx' my' c' x' y') := by
  have hst := hs.mul ht
  unfold covarianceStep
  split_ifs
  · refine hc.bind fun _ _ hc => ((hc.mul_self hst _).fdiv_self hst _).bind fun _ _ ha => ?_
    refine hy.bind fun _ _ hy => hx.bind fun _ _ hx => ?_
    have hd := ((hy.sub ht ky).mul ht hs (hx.sub hs kx)).congr (mul_comm t s)
    exact (hd.fdiv_self hst _).bind fun _ _ hb => ha.add hst hb
  · exact hc

theorem scaled_covarianceRun (hs : R.Exact s) (ht : R.Exact t) {P Q : MeanProvider (Fl R) (Fl R)} (hP : P.Scales (Scaled s) s)
    (hQ : Q.Scales (Scaled t) t) {ps qs : List (Fl R × Fl R)} (hl : List.Forall₂ (ScaledPair s t) ps qs) :
    Res.Lift (Scaled (s * t)) (covarianceRun P Q 0 0 ps) (covarianceRun P Q 0 0 qs) := by
  obtain ⟨r, h1, h2, h3⟩ := hP
  obtain ⟨r', h1', h2', h3'⟩ := hQ
  have h0 : Res.Lift (Scaled (s * t)) (CovSt.init P Q 0 0).cov (CovSt.init P Q 0 0).cov :=
    (Scaled.zero.fdiv_self hs 1).bind fun _ _ a => (Scaled.zero.fdiv_self ht 1).bind fun _ _ b => a.mul hs ht b
  refine (foldl_rel (r := fun a b : CovSt P.St Q.St (Fl R) => r a.mx b.mx ∧ r' a.my b.my ∧ a.cnt = b.cnt ∧
      Res.Lift (Scaled (s * t)) a.cov b.cov)
    (f := CovSt.push P Q) (g := CovSt.push P Q) ?_ hl
    (s := CovSt.init P Q 0 0) (t := CovSt.init P Q 0 0) ⟨h1, h1', rfl, h0⟩).2.2.2
  rintro a b x y ⟨i1, i1', i2, i3⟩ ⟨k, k'⟩
  have hm := h2 _ _ _ _ i1 k
  have hm' := h2' _ _ _ _ i1' k'
  refine ⟨hm, hm', congrArg (· + 1) i2, ?_⟩
  show Res.Lift _ (covarianceStep _ _ _ _ _ _) (covarianceStep _ _ _ _ _ _)
  rw [i2]
  exact scaled_covarianceStep hs ht _ (h3 _ _ hm) (h3' _ _ hm') i3 k k'

theorem scaled_weightedVarianceRun (hs : R.Exact s) (ht : R.Exact t) {P : MeanProvider (Fl R × Fl R) (Fl R)}
    (hP : P.Scales (ScaledPair s t) s) {ps qs : List (Fl R × Fl R)} (hl : List.Forall₂ (ScaledPair s t) ps qs) :
    Res.Lift (Scaled (s ^ 2)) (weightedVarianceRun P 0 ps) (weightedVarianceRun P 0 qs) := by
  obtain ⟨r, h1, h2, h3⟩ := hP
  refine (foldl_rel (r := fun a b : WVarianceSt P.St (Fl R) => r a.m b.m ∧ Scaled t a.sumW b.sumW ∧ a.cnt = b.cnt ∧
      Res.Lift (Scaled (s ^ 2)) a.var b.var)
    (f := WVarianceSt.push P) (g := WVarianceSt.push P) ?_ hl
    (s := ⟨P.init, 0, 0, fdiv 0 1⟩) (t := ⟨P.init, 0, 0, fdiv 0 1⟩)
    ⟨h1, Scaled.zero, rfl, Scaled.zero.fdiv_self (hs.pow 2) _⟩).2.2.2
  rintro a b x y ⟨i1, iw, i2, i3⟩ k
  have hm := h2 _ _ _ _ i1 k
  have hW := iw.add ht k.2
  refine ⟨hm, hW, congrArg (· + 1) i2, ?_⟩
  show Res.Lift _ (weightedVarianceStep _ _ _ _ _) (weightedVarianceStep _ _ _ _ _)
  rw [i2]
  unfold weightedVarianceStep
  split_ifs
  · refine (h3 _ _ hm).bind fun _ _ hm => i3.bind fun _ _ hv => ?_
    have e1 : s ^ 2 * t / t = s ^ 2 := mul_div_cancel_right₀ _ ht.1
    have hr := hW.sub ht k.2
    have ha := (hv.mul (hs.pow 2) ht hr).fdiv ((hs.pow 2).mul ht) ht hW
    rw [e1] at ha
    refine ha.bind fun _ _ ha => ?_
    have hd := k.1.sub hs hm
    have hb := ((((hd.mul hs hs hd).congr (by ring : s * s = s ^ 2)).mul (hs.pow 2) ht k.2)).fdiv ((hs.pow 2).mul ht) ht hr
    rw [e1] at hb
    exact hb.bind fun _ _ hb => ha.add (hs.pow 2) hb
  · exact i3

theorem scaled_weightedCovarianceRun {s' : K} (hs : R.Exact s) (hs' : R.Exact s') (ht : R.Exact t)
    {P Q : MeanProvider (Fl R × Fl R) (Fl R)} (hP : P.Scales (ScaledPair s t) s) (hQ : Q.Scales (ScaledPair s' t) s')
    {ps qs : List ((Fl R × Fl R) × Fl R)}
    (hl : List.Forall₂ (fun p q => ScaledPair s s' p.1 q.1 ∧ Scaled t p.2 q.2) ps qs) :
    Res.Lift (Scaled (s * s')) (weightedCovarianceRun P Q ps) (weightedCovarianceRun P Q qs) := by
  obtain ⟨r, h1, h2, h3⟩ := hP
  obtain ⟨r', h1', h2', h3'⟩ := hQ
  have hss := hs.mul hs'
  refine (foldl_rel (r := fun a b : WCovSt P.St Q.St (Fl R) => r a.mx b.mx ∧ r' a.my b.my ∧ Scaled t a.sumW b.sumW ∧
      a.cnt = b.cnt ∧ Res.Lift (Scaled (s * s')) a.cov b.cov)
    (f := WCovSt.push P Q) (g := WCovSt.push P Q) ?_ hl
    (s := ⟨P.init, Q.init, 0, 0, .val 0⟩) (t := ⟨P.init, Q.init, 0, 0, .val 0⟩)
    ⟨h1, h1', Scaled.zero, rfl, Scaled.zero⟩).2.2.2.2
  rintro a b x y ⟨i1, i1', iw, i2, i3⟩ ⟨⟨kx, ky⟩, kw⟩
  have hm := h2 _ _ (x.1.1, x.2) (y.1.1, y.2) i1 ⟨kx, kw⟩
  have hm' := h2' _ _ (x.1.2, x.2) (y.1.2, y.2) i1' ⟨ky, kw⟩
  have hW := iw.add ht kw
  refine ⟨hm, hm', hW, congrArg (· + 1) i2, ?_⟩
  show Res.Lift _ (weightedCovarianceStep _ _ _ _ _ _ _ _) (weightedCovarianceStep _ _ _ _ _ _ _ _)
  rw [i2]
  unfold weightedCovarianceStep
  split_ifs
  · refine i3.bind fun _ _ hc => ?_
    have e1 : s * s' * t / t = s * s' := mul_div_cancel_right₀ _ ht.1
    have hr := hW.sub ht kw
    have ha := (hc.mul hss ht hr).fdiv (hss.mul ht) ht hW
    rw [e1] at ha
    refine ha.bind fun _ _ ha => (h3' _ _ hm').bind fun _ _ hy => (h3 _ _ hm).bind fun _ _ hx => ?_
    have hd := ((hy.sub hs' ky).mul hs' hs (hx.sub hs kx)).congr (mul_comm s' s)
    have hb := (hd.mul hss ht kw).fdiv (hss.mul ht) ht hr
    rw [e1] at hb
    exact hb.bind fun _ _ hb => ha.add hss hb
  · exact i3

/-! ### Kurtosis, skewness, error of the mean -/

theorem scaled_kurtosisResult (hs : R.Exact s) {m2 m2' m3 m3' m4 m4' m m' : Res (Fl R)}
    (h2 : Res.Lift (Scaled (s ^ 2)) m2 m2') (h3 : Res.Lift (Scaled (s ^ 3)) m3 m3') (h4 : Res.Lift (Scaled (s ^ 4)) m4 m4')
    (h : Res.Lift (Scaled s) m m') : Res.Lift (Scaled 1) (kurtosisResult m2 m3 m4 m) (kurtosisResult m2' m3' m4' m') := by
  refine h4.bind fun _ _ h4 => h3.bind fun _ _ h3 => h2.bind fun _ _ h2 => h.bind fun _ _ h => ?_
  have p := fun n => hs.pow n
  have x := ((h3.self_mul (p 3) 4).mul (p 3) hs h).congr (by ring : s ^ 3 * s = s ^ 4)
  have y := (((h2.self_mul (p 2) 6).mul (p 2) hs h).mul ((p 2).mul hs) hs h).congr (by ring : s ^ 2 * s * s = s ^ 4)
  have z := ((((h.self_mul hs 3).mul hs hs h).mul (hs.mul hs) hs h).mul ((hs.mul hs).mul hs) hs h).congr
    (by ring : s * s * s * s = s ^ 4)
  have num := ((h4.sub (p 4) x).add (p 4) y).sub (p 4) z
  have d := h2.sub (p 2) ((h.mul hs hs h).congr (by ring : s * s = s ^ 2))
  have den := (d.mul (p 2) (p 2) d).congr (by ring : s ^ 2 * s ^ 2 = s ^ 4)
  have q := num.fdiv (p 4) (p 4) den
  rw [div_self (p 4).1] at q
  exact q.bind fun _ _ q => q.sub Rounding.Exact.one Scaled.self

/-- A square root that follows the factor: `root (s² x) = |s| root x`. -/
def RootScales (root : Fl R → Res (Fl R)) (s : K) : Prop :=
  ∀ x y, Scaled (s ^ 2) x y → Res.Lift (Scaled |s|) (root x) (root y)

theorem Rounding.Exact.abs (hs : R.Exact s) (hR : ∀ x, R.rd (-x) = -R.rd x) : R.Exact |s| := by
  rcases abs_choice s with h | h
  · rw [h]; exact hs
  · rw [h]
    exact ⟨neg_ne_zero.2 hs.1, fun x => by rw [neg_mul, hR, hs.2, neg_mul]⟩

theorem scaled_skewnessWith {root : Fl R → Res (Fl R)} (hs : R.Exact s) (ha : R.Exact |s|) (hr : RootScales root s)
    {m2 m2' m3 m3' m m' : Res (Fl R)} (h2 : Res.Lift (Scaled (s ^ 2)) m2 m2') (h3 : Res.Lift (Scaled (s ^ 3)) m3 m3')
    (h : Res.Lift (Scaled s) m m') :
    Res.Lift (Scaled (s / |s|)) (skewnessWith root m2 m3 m) (skewnessWith root m2' m3' m') := by
  refine h3.bind fun _ _ h3 => h2.bind fun _ _ h2 => h.bind fun _ _ h => ?_
  have p := fun n => hs.pow n
  have d := h2.sub (p 2) ((h.mul hs hs h).congr (by ring : s * s = s ^ 2))
  refine (hr _ _ d).bind fun _ _ r => ?_
  have x := ((h2.self_mul (p 2) 3).mul (p 2) hs h).congr (by ring : s ^ 2 * s = s ^ 3)
  have y := (((h.self_mul hs 2).mul hs hs h).mul (hs.mul hs) hs h).congr (by ring : s * s * s = s ^ 3)
  have num := (h3.sub (p 3) x).add (p 3) y
  have q := num.fdiv (p 3) ((p 2).mul ha) (d.mul (p 2) ha r)
  have e : s ^ 3 / (s ^ 2 * |s|) = s / |s| := by
    have := hs.1
    have := ha.1
    field_simp
  rwa [e] at q

theorem scaled_errorOfMeanWith {root : Fl R → Res (Fl R)} (hs : R.Exact s) (hr : RootScales root s) {w : ℕ} {c : BitVec w}
    {v v' : Res (Fl R)} (h : Res.Lift (Scaled (s ^ 2)) v v') :
    Res.Lift (Scaled |s|) (errorOfMeanWith root w v c) (errorOfMeanWith root w v' c) :=
  h.bind fun _ _ h => (h.fdiv_self (hs.pow 2) _).bind fun _ _ q => hr _ _ q

/-! ### Sums -/

theorem scaled_sumRun {A B : Type} (hs : R.Exact s) {tag : A → Fl R} {tag' : B → Fl R} {as : List A} {bs : List B}
    (hl : List.Forall₂ (fun a b => Scaled s (tag a) (tag' b)) as bs) {x y : Fl R} (h : Scaled s x y) :
    Scaled s (sumRun tag x as) (sumRun tag' y bs) :=
  foldl_rel (r := Scaled s) (q := fun a b => Scaled s (tag a) (tag' b)) (fun _ _ _ _ h k => h.add hs k) hl h

theorem scaled_kahanRun {A B : Type} (hs : R.Exact s) {tag : A → Fl R} {tag' : B → Fl R} {as : List A} {bs : List B}
    (hl : List.Forall₂ (fun a b => Scaled s (tag a) (tag' b)) as bs) {x y : Fl R} (h : Scaled s x y) :
    Scaled s (kahanRun tag x as).sum (kahanRun tag' y bs).sum := by
  refine (foldl_rel (r := fun a b : Kahan (Fl R) => Scaled s a.sum b.sum ∧ Scaled s a.compensation b.compensation)
    ?_ hl (s := Kahan.init x) (t := Kahan.init y) ⟨h, Scaled.zero⟩).1
  rintro a b u v ⟨h1, h2⟩ k
  have t1 := k.sub hs h2
  have t2 := h1.add hs t1
  exact ⟨t2, (t2.sub hs h1).sub hs t1⟩

/-! ### Windows -/

/-- Two windows of the same capacity with related contents. -/
def Ring.Rel {X : Type} (q : X → X → Prop) (a b : Ring X) : Prop := a.cap = b.cap ∧ List.Forall₂ q a.elems b.elems

namespace Ring.Rel
variable {X : Type} {q : X → X → Prop} {a b : Ring X}

theorem length (h : Ring.Rel q a b) : a.elems.length = b.elems.length := h.2.length_eq

theorem full (h : Ring.Rel q a b) : a.full = b.full := by simp only [Ring.full, h.length, h.1]

theorem count (h : Ring.Rel q a b) : rollingCount a = rollingCount b := by simp only [rollingCount, h.length, h.full]

theorem front (h : Ring.Rel q a b) : Res.Lift q a.front b.front := by
  obtain ⟨_, h⟩ := h
  unfold Ring.front
  generalize a.elems = l at *
  generalize b.elems = m at *
  cases h with
  | nil => trivial
  | cons h _ => exact h

theorem push (h : Ring.Rel q a b) {x y : X} (k : q x y) : Ring.Rel q (windowPush a x) (windowPush b y) := by
  have e1 := h.length
  obtain ⟨e2, h⟩ := h
  have ha : ∀ {l m : List X}, List.Forall₂ q l m → List.Forall₂ q (l ++ [x]) (m ++ [y]) := fun h =>
    List.rel_append h (.cons k .nil)
  unfold windowPush Ring.pushBack
  rw [e1, e2]
  split_ifs
  · exact ⟨rfl, ha h⟩
  · exact ⟨e2, h⟩
  · refine ⟨rfl, ha ?_⟩
    generalize a.elems = l at *
    generalize b.elems = m at *
    cases h with
    | nil => exact .nil
    | cons _ t => exact t

end Ring.Rel

theorem scaled_rollingMomentStep (hs : R.Exact s) (M : ℕ) {b c : Ring (Fl R)} (hb : Ring.Rel (Scaled s) b c) {u v : Res (Fl R)}
    (h : Res.Lift (Scaled (s ^ M)) u v) {x y : Fl R} (k : Scaled s x y) :
    Res.Lift (Scaled (s ^ M)) (rollingMomentStep M b u x) (rollingMomentStep M c v y) := by
  unfold rollingMomentStep
  refine h.bind fun a b h => ?_
  have last : ∀ c d : Fl R, Scaled (s ^ M) c d → Res.Lift (Scaled (s ^ M)) (pure (c + mpow x M)) (pure (d + mpow y M)) :=
    fun _ _ h => show Scaled _ _ _ from h.add (hs.pow M) (scaled_mpow hs k M)
  dsimp only
  rw [hb.full]
  split
  · refine Res.Lift.bind ?_ last
    exact hb.front.bind fun _ _ f => show Res.Lift _ (.val _) (.val _) from h.sub (hs.pow M) (scaled_mpow hs f M)
  · exact last _ _ h

theorem scaled_rollingSumStep (hs : R.Exact s) {b c : Ring (Fl R)} (hb : Ring.Rel (Scaled s) b c) {u v : Res (Fl R)}
    (h : Res.Lift (Scaled s) u v) {x y : Fl R} (k : Scaled s x y) :
    Res.Lift (Scaled s) (rollingSumStep b u x) (rollingSumStep c v y) := by
  unfold rollingSumStep
  refine h.bind fun a b h => ?_
  have last : ∀ c d : Fl R, Scaled s c d → Res.Lift (Scaled s) (pure (c + x)) (pure (d + y)) :=
    fun _ _ h => show Scaled _ _ _ from h.add hs k
  dsimp only
  rw [hb.full]
  split
  · refine Res.Lift.bind ?_ last
    exact hb.front.bind fun _ _ f => show Res.Lift _ (.val _) (.val _) from h.sub hs f
  · exact last _ _ h

/-- The rounding treats positive and negative numbers alike: rounding to nearest and towards zero do. -/
def Rounding.Odd (R : Rounding K) : Prop := ∀ x, R.rd (-x) = -R.rd x

/-- The correction of the immediate rolling mean, which is written with a difference that is not negative. -/
theorem scaled_correct (hs : R.Exact s) (ho : 0 < s ∨ R.Odd) {m m' f f' x y n : Fl R} (hm : Scaled s m m') (hf : Scaled s f f')
    (k : Scaled s x y) :
    Res.Lift (Scaled s)
      (if f > x then (do let d ← fdiv (f - x) n; return m - d)
        else if f < x then (do let d ← fdiv (x - f) n; return m + d) else return m : Res (Fl R))
      (if f' > y then (do let d ← fdiv (f' - y) n; return m' - d)
        else if f' < y then (do let d ← fdiv (y - f') n; return m' + d) else return m' : Res (Fl R)) := by
  rcases lt_or_gt_of_ne hs.1 with hn | hp
  · -- a negative factor exchanges the branches
    have ho : R.Odd := ho.resolve_left (not_lt.2 hn.le)
    have a1 : (f' > y) ↔ f < x := Scaled.lt_iff_neg hn k hf
    have a2 : (f' < y) ↔ f > x := Scaled.lt_iff_neg hn hf k
    have hn' : R.Exact (-s) := ⟨neg_ne_zero.2 hs.1, fun z => by rw [neg_mul, ho, hs.2, neg_mul]⟩
    have e : ∀ {a b a' b' : Fl R}, Scaled s a b → Scaled s a' b' → Scaled (-s) (a - a') (b' - b) := by
      intro a b a' b' h h'
      unfold Scaled at *
      rw [Fl.val_sub, Fl.val_sub, h, h', ← hn'.2]
      congr 1; ring
    rcases lt_trichotomy f x with h | h | h
    · rw [if_neg (not_lt.2 h.le), if_pos h, if_pos (a1.2 h)]
      refine ((e k hf).fdiv_self hn' n).bind fun c d hd => ?_
      show Scaled s (m + c) (m' - d)
      unfold Scaled at *
      rw [Fl.val_add, Fl.val_sub, hd, hm, ← hs.2]
      congr 1; ring
    · rw [if_neg (not_lt.2 h.le), if_neg (not_lt.2 h.ge), if_neg (fun c => absurd (a1.1 c) (not_lt.2 h.ge)),
        if_neg (fun c => absurd (a2.1 c) (not_lt.2 h.le))]
      exact hm
    · rw [if_pos h, if_neg (fun c => absurd (a1.1 c) (not_lt.2 h.le)), if_pos (a2.2 h)]
      refine ((e hf k).fdiv_self hn' n).bind fun c d hd => ?_
      show Scaled s (m - c) (m' + d)
      unfold Scaled at *
      rw [Fl.val_add, Fl.val_sub, hd, hm, ← hs.2]
      congr 1; ring
  · have a1 : (f' > y) ↔ f > x := Scaled.lt_iff_pos hp k hf
    have a2 : (f' < y) ↔ f < x := Scaled.lt_iff_pos hp hf k
    simp only [a1, a2]
    split_ifs
    · exact ((hf.sub hs k).fdiv_self hs _).bind fun _ _ d => show Res.Lift _ (.val _) (.val _) from hm.sub hs d
    · exact ((k.sub hs hf).fdiv_self hs _).bind fun _ _ d => show Res.Lift _ (.val _) (.val _) from hm.add hs d
    · exact hm

theorem scaled_immRollingMeanStep (hs : R.Exact s) (ho : 0 < s ∨ R.Odd) {b c : Ring (Fl R)} (hb : Ring.Rel (Scaled s) b c)
    {u v : Res (Fl R)} (h : Res.Lift (Scaled s) u v) {x y : Fl R} (k : Scaled s x y) :
    Res.Lift (Scaled s) (immRollingMeanStep b u x) (immRollingMeanStep c v y) := by
  unfold immRollingMeanStep
  refine h.bind fun _ _ h => ?_
  rw [hb.full, hb.count]
  split
  · exact hb.front.bind fun _ _ f => scaled_correct hs ho h f k
  · exact scaled_correct hs ho h h k

/-- The states of two sets with all rolling accumulators. -/
structure RollRel (s : K) (a b : RollSt (Fl R)) : Prop where
  ring : Ring.Rel (Scaled s) a.b b.b
  sum : Res.Lift (Scaled s) a.sum b.sum
  moment : ∀ M, Res.Lift (Scaled (s ^ M)) (a.moment M) (b.moment M)
  imean : Res.Lift (Scaled s) a.imean b.imean
  prev : Res.Lift (Scaled s) a.var.prevMean b.var.prevMean
  ss : Res.Lift (Scaled (s ^ 2)) a.var.ss b.var.ss

theorem scaled_lazyRollingMeanResult (hs : R.Exact s) {b c : Ring (Fl R)} (hb : Ring.Rel (Scaled s) b c) {u v : Res (Fl R)}
    (h : Res.Lift (Scaled s) u v) : Res.Lift (Scaled s) (lazyRollingMeanResult b u) (lazyRollingMeanResult c v) := by
  unfold lazyRollingMeanResult
  rw [hb.count]
  exact h.bind fun _ _ h => h.fdiv_self hs _

theorem scaled_preventUnderflow (hs : 0 < s) {a b : Fl R} (h : Scaled s a b) :
    Scaled s (preventUnderflow a) (preventUnderflow b) := by
  unfold preventUnderflow
  have : b < 0 ↔ a < 0 := Scaled.lt_iff_pos hs h Scaled.zero
  simp only [this]
  split_ifs
  · exact Scaled.zero
  · exact h

theorem scaled_rollVarStep (hs : R.Exact s) {b c : Ring (Fl R)} (hb : Ring.Rel (Scaled s) b c) {u v : Res (Fl R)}
    (hm : Res.Lift (Scaled s) u v) {p q : RollVar (Fl R)} (hp : Res.Lift (Scaled s) p.prevMean q.prevMean)
    (h : Res.Lift (Scaled (s ^ 2)) p.ss q.ss) {x y : Fl R} (k : Scaled s x y) :
    Res.Lift (Scaled (s ^ 2)) (p.step b u x).ss (q.step c v y).ss := by
  unfold RollVar.step
  refine hm.bind fun _ _ hm => hp.bind fun _ _ hp => h.bind fun _ _ h => ?_
  have pr : ∀ {z w : Fl R}, Scaled s z w → _ := fun kz => (((kz.sub hs hm).mul hs hs (kz.sub hs hp)).congr (by ring : s * s = s ^ 2))
  have h1 := h.add (hs.pow 2) (pr k)
  simp only [hb.full]
  split
  · refine hb.front.bind fun _ _ f => show Res.Lift _ (.val _) (.val _) from ?_
    exact scaled_preventUnderflow (by have := hs.1; positivity) (h1.sub (hs.pow 2) (pr f))
  · exact h1

theorem rollRel_rollRun (hs : R.Exact s) (ho : 0 < s ∨ R.Odd) (kind : RollMeanKind) (N : ℕ) {xs ys : List (Fl R)}
    (hl : List.Forall₂ (Scaled s) xs ys) : RollRel s (rollRun kind N 0 xs) (rollRun kind N 0 ys) := by
  refine foldl_rel (r := RollRel s) (f := RollSt.push kind) (g := RollSt.push kind) ?_ hl ?_
  · intro a b x y h k
    have hb := h.ring.push k
    have hsum := scaled_rollingSumStep hs hb h.sum k
    have him := scaled_immRollingMeanStep hs ho hb h.imean k
    have hm : Res.Lift (Scaled s) ((a.push kind x).var.prevMean) ((b.push kind y).var.prevMean) := by
      cases kind
      · exact scaled_lazyRollingMeanResult hs hb hsum
      · exact him
    exact ⟨hb, hsum, fun M => scaled_rollingMomentStep hs M hb (h.moment M) k, him, hm,
      scaled_rollVarStep hs hb hm h.prev h.ss k⟩
  · have z : ∀ {t : K}, Scaled t (0 : Fl R) 0 := Scaled.zero
    exact ⟨⟨rfl, .nil⟩, z, fun M => z, z.fdiv_self hs 1, z.fdiv_self hs 1, z.fdiv_self (hs.pow 2) 1⟩

theorem RollRel.mean (hs : R.Exact s) {a b : RollSt (Fl R)} (h : RollRel s a b) (kind : RollMeanKind) :
    Res.Lift (Scaled s) (a.mean kind) (b.mean kind) := by
  cases kind
  · exact scaled_lazyRollingMeanResult hs h.ring h.sum
  · exact h.imean

theorem RollRel.momentResult (hs : R.Exact s) {a b : RollSt (Fl R)} (h : RollRel s a b) (M : ℕ) :
    Res.Lift (Scaled (s ^ M)) (rollingMomentResult a.b (a.moment M)) (rollingMomentResult b.b (b.moment M)) := by
  unfold rollingMomentResult
  rw [h.ring.count]
  exact (h.moment M).bind fun _ _ h => h.fdiv_self (hs.pow M) _

theorem RollRel.variance (hs : R.Exact s) {a b : RollSt (Fl R)} (h : RollRel s a b) :
    Res.Lift (Scaled (s ^ 2)) (a.var.result a.b) (b.var.result b.b) := by
  unfold RollVar.result
  rw [h.ring.count]
  split_ifs
  · exact Scaled.zero
  · exact h.ss.bind fun _ _ h => h.fdiv_self (hs.pow 2) _

theorem RollRel.lazyVariance (hs : R.Exact s) {a b : RollSt (Fl R)} (h : RollRel s a b) (kind : RollMeanKind) :
    Res.Lift (Scaled (s ^ 2))
      (lazyRollingVarianceResult a.b (rollingMomentResult a.b (a.moment 2)) (a.mean kind))
      (lazyRollingVarianceResult b.b (rollingMomentResult b.b (b.moment 2)) (b.mean kind)) := by
  unfold lazyRollingVarianceResult
  rw [h.ring.count]
  split_ifs
  · exact Scaled.zero
  · refine (h.mean hs kind).bind fun _ _ m => ?_
    refine (h.momentResult hs 2).bind fun _ _ m2 => ?_
    exact ((m2.sub (hs.pow 2) ((m.mul hs hs m).congr (by ring))).self_mul (hs.pow 2) _).fdiv_self (hs.pow 2) _

end

/-! ### Powers of two in a binary format -/

theorem expo_two_zpow_mul (k : ℤ) {x : ℚ} (hx : 0 < x) : expo (2 ^ k * x) = k + expo x := by
  have h2 : (0 : ℚ) < 2 ^ k := by positivity
  obtain ⟨h1, h3⟩ := expo_spec hx
  refine expo_unique (by positivity) ?_ ?_
  · rw [zpow_add₀ two_ne_zero]
    exact mul_le_mul_of_nonneg_left h1 h2.le
  · rw [add_assoc, zpow_add₀ two_ne_zero]
    exact mul_lt_mul_of_pos_left h3 h2

theorem roundPos_two_zpow_mul (p : ℕ) (k : ℤ) {x : ℚ} (hx : 0 < x) : roundPos p (2 ^ k * x) = 2 ^ k * roundPos p x := by
  have h2 : (2 : ℚ) ^ k ≠ 0 := by positivity
  have hu : ulp p (2 ^ k * x) = 2 ^ k * ulp p x := by
    rw [ulp, ulp, expo_two_zpow_mul k hx, ← zpow_add₀ two_ne_zero]
    congr 1; ring
  rw [roundPos, roundPos, hu, mul_div_mul_left _ _ h2]
  ring

theorem roundBits_two_zpow_mul (p : ℕ) (k : ℤ) (x : ℚ) : roundBits p (2 ^ k * x) = 2 ^ k * roundBits p x := by
  have h2 : (0 : ℚ) < 2 ^ k := by positivity
  have key : ∀ x : ℚ, 0 < x → roundBits p (2 ^ k * x) = 2 ^ k * roundBits p x := fun x hx => by
    rw [roundBits_pos hx, roundBits_pos (mul_pos h2 hx), roundPos_two_zpow_mul p k hx]
  rcases lt_trichotomy x 0 with h | rfl | h
  · have := key (-x) (by linarith)
    rwa [mul_neg, roundBits_neg, roundBits_neg, mul_neg, neg_inj] at this
  · simp [roundBits]
  · exact key x h

end Acc
