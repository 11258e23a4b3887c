import Verif.Props.RoundCov
import Verif.Props.RoundWeighted
import Verif.Proofs.Weighted

/-!
# C96: kurtosis in floating point arithmetic

`Fl R` is a floating point type with rounding `R`; `u` bounds the relative error of one operation.
-/

set_option linter.unusedSectionVars false

namespace Acc

variable {K : Type} [Field K] [LinearOrder K] [IsStrictOrderedRing K] {R : Rounding K} {u : K}

/-! ## expressions -/

/-- `a` is `t` up to `c` roundings, relative to the bound `A` of `t`. -/
def Near (u : K) (c : ℕ) (a : Fl R) (t A : K) : Prop := |t| ≤ A ∧ |a.val - t| ≤ ((1 + u) ^ c - 1) * A

theorem Near.mono (h0 : 0 ≤ u) {c d : ℕ} {a : Fl R} {t A : K} (h : Near u c a t A) (hcd : c ≤ d) : Near u d a t A := by
  refine ⟨h.1, h.2.trans (mul_le_mul_of_nonneg_right ?_ ((abs_nonneg _).trans h.1))⟩
  have := pow_le_pow_right₀ (show 1 ≤ 1 + u by linarith) hcd
  linarith

theorem Near.mul (hu : R.RelErr u) {c d : ℕ} {a b : Fl R} {t s A B : K} (h : Near u c a t A) (k : Near u d b s B) :
    Near u (c + d + 1) (a * b) (t * s) (A * B) := by
  have h0 := hu.nonneg
  have hA := (abs_nonneg t).trans h.1
  have hts : |t * s| ≤ A * B := by
    rw [abs_mul]
    exact mul_le_mul h.1 k.1 (abs_nonneg _) hA
  have hc1 : 1 ≤ (1 + u) ^ c := one_le_pow₀ (by linarith)
  have e := prod_err (sub_nonneg.2 hc1) h.1 k.1 h.2 k.2
  rw [add_sub_cancel, add_sub_cancel] at e
  have r := hu.round hts e
  rw [add_sub_cancel] at r
  refine ⟨hts, ?_⟩
  rw [Fl.val_mul, show (1 + u) ^ (c + d + 1) = (1 + u) * ((1 + u) ^ c * (1 + u) ^ d) by ring]
  exact r

theorem near_sum_arith (hu : R.RelErr u) {c : ℕ} {z t A : K} (ht : |t| ≤ A) (h : |z - t| ≤ ((1 + u) ^ c - 1) * A) :
    |R.rd z - t| ≤ ((1 + u) ^ (c + 1) - 1) * A := by
  have r := hu.round ht h
  rwa [add_sub_cancel, ← pow_succ'] at r

theorem Near.sub (hu : R.RelErr u) {c : ℕ} {a b : Fl R} {t s A B : K} (h : Near u c a t A) (k : Near u c b s B) :
    Near u (c + 1) (a - b) (t - s) (A + B) := by
  have hts : |t - s| ≤ A + B := (abs_sub _ _).trans (add_le_add h.1 k.1)
  refine ⟨hts, ?_⟩
  rw [Fl.val_sub]
  refine near_sum_arith hu hts ?_
  rw [sub_sub_sub_comm, mul_add]
  exact (abs_sub _ _).trans (add_le_add h.2 k.2)

theorem Near.add (hu : R.RelErr u) {c : ℕ} {a b : Fl R} {t s A B : K} (h : Near u c a t A) (k : Near u c b s B) :
    Near u (c + 1) (a + b) (t + s) (A + B) := by
  have hts : |t + s| ≤ A + B := (abs_add_le _ _).trans (add_le_add h.1 k.1)
  refine ⟨hts, ?_⟩
  rw [Fl.val_add]
  refine near_sum_arith hu hts ?_
  rw [add_sub_add_comm, mul_add]
  exact (abs_add_le _ _).trans (add_le_add h.2 k.2)

theorem Near.nat {n : ℕ} (hn : R.rd (n : K) = n) : Near u 0 ((n : ℕ) : Fl R) (n : K) (n : K) := by
  refine ⟨by rw [abs_of_nonneg (Nat.cast_nonneg n)], ?_⟩
  rw [Fl.val_natCast, hn]
  simp

/-! ## a quotient -/

theorem quot_err {a t b s α β : K} (hs : 0 < s) (ha : |a - t| ≤ α) (hb : |b - s| ≤ β) (hβ : 2 * β ≤ s) :
    0 < b ∧ |a / b - t / s| ≤ 2 * (α + |t / s| * β) / s := by
  have hb1 := (abs_le.1 hb).1
  have hβ0 : 0 ≤ β := (abs_nonneg _).trans hb
  have hb2 : s ≤ 2 * b := by linarith
  have hb0 : 0 < b := by linarith
  refine ⟨hb0, ?_⟩
  have e : a / b - t / s = ((a - t) - t / s * (b - s)) / b := by
    field_simp
    ring
  rw [e, abs_div, abs_of_pos hb0, div_le_div_iff₀ hb0 hs]
  have h1 : |(a - t) - t / s * (b - s)| ≤ α + |t / s| * β := by
    refine (abs_sub _ _).trans (add_le_add ha ?_)
    rw [abs_mul]
    exact mul_le_mul_of_nonneg_left hb (abs_nonneg _)
  have h2 : 0 ≤ α + |t / s| * β := (abs_nonneg _).trans h1
  calc |(a - t) - t / s * (b - s)| * s ≤ (α + |t / s| * β) * s := mul_le_mul_of_nonneg_right h1 hs.le
    _ ≤ (α + |t / s| * β) * (2 * b) := mul_le_mul_of_nonneg_left hb2 h2
    _ = 2 * (α + |t / s| * β) * b := by ring

theorem near_div_arith (hu : R.RelErr u) {z k α : K} (h : |z - k| ≤ α) : |R.rd z - k| ≤ (1 + u) * α + u * |k| := by
  have h0 := hu.nonneg
  have h1 := hu z
  have h2 : |z| ≤ α + |k| := by
    have := abs_add_le (z - k) k
    rw [sub_add_cancel] at this
    linarith
  have h3 := abs_add_le (R.rd z - z) (z - k)
  rw [sub_add_sub_cancel] at h3
  have h4 : u * |z| ≤ u * (α + |k|) := mul_le_mul_of_nonneg_left h2 h0
  linarith

/-! ## kurtosis -/

/-- From approximate moments and mean. -/
theorem kurtosisResult_err (hu : R.RelErr u) (hc : R.Counts 6) {m2 m3 m4 m : Fl R} {M2 M3 M4 mu B : K} {a e : ℕ}
    (h2 : Near u a m2 M2 (B ^ 2)) (h3 : Near u a m3 M3 (B ^ 3)) (h4 : Near u a m4 M4 (B ^ 4)) (h1 : Near u e m mu B)
    {v k δ : K} (hv : v = M2 - mu * mu) (hv0 : 0 < v) (hδ : δ = (1 + u) ^ (2 * a + 4 * e + 5) - 1)
    (hk : k = (M4 - 4 * M3 * mu + 6 * M2 * mu * mu - 3 * mu * mu * mu * mu) / (v * v))
    (hsmall : 8 * δ * (B ^ 2 / v) ^ 2 ≤ 1) :
    ∃ q : Fl R, kurtosisResult (.val m2) (.val m3) (.val m4) (.val m) = .val q ∧
      |q.val - (k - 3)| ≤ (1 + u) ^ 2 * ((28 + 8 * |k|) * δ * (B ^ 2 / v) ^ 2) + (1 + u) * u * |k| + u * |k - 3| := by
  have h0 := hu.nonneg
  have n3 : Near u 0 (3 : Fl R) 3 3 := by simpa using Near.nat (u := u) (hc 3 (by norm_num))
  have n4 : Near u 0 (4 : Fl R) 4 4 := by simpa using Near.nat (u := u) (hc 4 (by norm_num))
  have n6 : Near u 0 (6 : Fl R) 6 6 := by simpa using Near.nat (u := u) (hc 6 (by norm_num))
  have x := (n4.mul hu h3).mul hu h1
  have y := ((n6.mul hu h2).mul hu h1).mul hu h1
  have z := (((n3.mul hu h1).mul hu h1).mul hu h1).mul hu h1
  have s1 := (h4.mono h0 (show a ≤ a + 4 * e + 2 by omega)).sub hu (x.mono h0 (show _ ≤ a + 4 * e + 2 by omega))
  have s2 := s1.add hu (y.mono h0 (show _ ≤ a + 4 * e + 2 + 1 by omega))
  have s3 := (s2.sub hu (z.mono h0 (show _ ≤ a + 4 * e + 2 + 1 + 1 by omega))).mono h0
    (show _ ≤ 2 * a + 4 * e + 5 by omega)
  have d1 := (h2.mono h0 (show a ≤ a + 2 * e + 1 by omega)).sub hu ((h1.mul hu h1).mono h0 (show _ ≤ a + 2 * e + 1 by omega))
  have d2 := (d1.mul hu d1).mono h0 (show _ ≤ 2 * a + 4 * e + 5 by omega)
  have num := s3.2
  have den := d2.2
  rw [← hδ] at num den
  rw [← hv] at den
  rw [show B ^ 4 + 4 * B ^ 3 * B + 6 * B ^ 2 * B * B + 3 * B * B * B * B = 14 * B ^ 4 by ring] at num
  rw [show (B ^ 2 + B * B) * (B ^ 2 + B * B) = 4 * B ^ 4 by ring] at den
  have hvv : 0 < v * v := mul_pos hv0 hv0
  have hB4 : (B ^ 2 / v) ^ 2 = B ^ 4 / (v * v) := by field_simp
  rw [hB4] at hsmall ⊢
  have hβ : 2 * (δ * (4 * B ^ 4)) ≤ v * v := by
    rw [← mul_div_assoc, div_le_one hvv] at hsmall
    linarith
  obtain ⟨hb0, hq⟩ := quot_err hvv num den hβ
  rw [← hk] at hq
  have hne : (m2 - m * m) * (m2 - m * m) ≠ 0 := by
    intro e
    rw [Fl.eq_zero_iff] at e
    linarith
  refine ⟨(m4 - 4 * m3 * m + 6 * m2 * m * m - 3 * m * m * m * m) / ((m2 - m * m) * (m2 - m * m)) - 3, ?_, ?_⟩
  · simp only [kurtosisResult, Res.val_bind, fdiv, if_neg hne, Res.pure_eq]
  · have r1 := near_div_arith hu (k := k) hq
    rw [Fl.val_sub, Fl.val_div]
    have h3v : (3 : Fl R).val = 3 := by
      rw [show (3 : Fl R) = ((3 : ℕ) : Fl R) from rfl, Fl.val_natCast, hc 3 (by norm_num)]
      norm_num
    rw [h3v]
    rw [← sub_sub_sub_cancel_right _ k 3] at r1
    have r2 := near_div_arith hu r1
    refine r2.trans (le_of_eq ?_)
    field_simp
    ring

/-! ## moments and means of bounded samples -/

theorem pow_mean_le {B : K} {k : ℕ} {xs : List (Fl R)} (h : xs ≠ []) (hB : ∀ x ∈ xs, |x.val| ≤ B) :
    (xs.map fun x => |x.val ^ k|).sum / xs.length ≤ B ^ k := by
  have hn : (0 : K) < xs.length := by exact_mod_cast List.length_pos_iff.2 h
  rw [div_le_iff₀ hn]
  clear hn h
  induction xs with
  | nil => simp
  | cons x l ih =>
    have h1 := ih fun y hy => hB y (by simp [hy])
    have h2 : |x.val ^ k| ≤ B ^ k := by
      rw [abs_pow]
      exact pow_le_pow_left₀ (abs_nonneg _) (hB x (by simp)) k
    simp only [List.map_cons, List.sum_cons, List.length_cons, Nat.cast_add, Nat.cast_one]
    linarith

theorem near_moment (hu : R.RelErr u) {B : K} {k a : ℕ} (hk : 0 < k) {xs : List (Fl R)} (h : xs ≠ [])
    (hB : ∀ x ∈ xs, |x.val| ≤ B) (hc : R.Counts xs.length) (ha : xs.length + k ≤ a) :
    ∃ m : Fl R, momentRun k (0 : Fl R) xs = .val m ∧ Near u a m ((xs.map fun x => x.val ^ k).sum / xs.length) (B ^ k) := by
  obtain ⟨m, hm, he⟩ := C60_moment hu hk xs h hc
  have h0 := hu.nonneg
  have hn : (0 : K) < xs.length := by exact_mod_cast List.length_pos_iff.2 h
  have hp := pow_mean_le (k := k) h hB
  have h1 : 1 ≤ (1 + u) ^ (xs.length + k) := one_le_pow₀ (by linarith)
  refine ⟨m, hm, Near.mono h0 ⟨?_, he.trans (mul_le_mul_of_nonneg_left hp (by linarith))⟩ ha⟩
  rw [abs_div, abs_of_pos hn]
  exact (div_le_div_of_nonneg_right (abs_sum_le (fun x : Fl R => x.val ^ k) xs) hn.le).trans hp

theorem near_mean {B : K} (h0 : 0 ≤ u) {e : ℕ} {xs : List (Fl R)} (h : xs ≠ [])
    (hB : ∀ x ∈ xs, |x.val| ≤ B) {m : Fl R}
    (he : |m.val - (xs.map Fl.val).sum / xs.length| ≤ ((1 + u) ^ e - 1) * ((xs.map fun x => |x.val|).sum / xs.length)) :
    Near u e m ((xs.map Fl.val).sum / xs.length) B := by
  have hn : (0 : K) < xs.length := by exact_mod_cast List.length_pos_iff.2 h
  have hp := pow_mean_le (k := 1) h hB
  simp only [pow_one] at hp
  have h1 : 1 ≤ (1 + u) ^ e := one_le_pow₀ (by linarith)
  refine ⟨?_, he.trans (mul_le_mul_of_nonneg_left hp (by linarith))⟩
  rw [abs_div, abs_of_pos hn]
  exact (div_le_div_of_nonneg_right (abs_sum_le Fl.val xs) hn.le).trans hp

/-! ## the accumulator -/

theorem specMean_val (xs : List (Fl R)) : Spec.mean (xs.map Fl.val) = (xs.map Fl.val).sum / xs.length := by
  rw [Spec.mean, List.length_map]

theorem specRawMoment_val (k : ℕ) (xs : List (Fl R)) :
    Spec.rawMoment k (xs.map Fl.val) = (xs.map fun x => x.val ^ k).sum / xs.length := by
  rw [Spec.rawMoment, List.length_map, List.map_map]
  rfl

/-- **C96** `kurtosis` over any provider of the mean of error `(1+u)ᵉ - 1` (relative to the mean absolute value): if `B` bounds
the samples and their variance `v` is not too small compared to `B²`, the result differs from the exact excess kurtosis `κ - 3` by
at most `(1+u)² (28 + 8κ) δ (B²/v)² + (1+u) u κ + u |κ - 3|` with `δ = (1+u)²ⁿ⁺⁴ᵉ⁺¹³ - 1`. -/
theorem C96_over (hu : R.RelErr u) (P : MeanProvider (Fl R) (Fl R)) {B : K} {e : ℕ} (xs : List (Fl R)) (h : xs ≠ [])
    (hB : ∀ x ∈ xs, |x.val| ≤ B) (hc : R.Counts (max 6 xs.length))
    (hP : ∃ m, P.read (P.run xs) = .val m ∧
      |m.val - (xs.map Fl.val).sum / xs.length| ≤ ((1 + u) ^ e - 1) * ((xs.map fun x => |x.val|).sum / xs.length))
    {v κ δ : K} (hv : v = Spec.variance (xs.map Fl.val)) (hv0 : 0 < v) (hκ : κ = Spec.centralMoment 4 (xs.map Fl.val) / v ^ 2)
    (hδ : δ = (1 + u) ^ (2 * xs.length + 4 * e + 13) - 1) (hsmall : 8 * δ * (B ^ 2 / v) ^ 2 ≤ 1) :
    ∃ q : Fl R, kurtosisRun P xs = .val q ∧
      |q.val - (κ - 3)| ≤ (1 + u) ^ 2 * ((28 + 8 * κ) * δ * (B ^ 2 / v) ^ 2) + (1 + u) * u * κ + u * |κ - 3| := by
  have hcn : R.Counts xs.length := fun k hk => hc k (hk.trans (le_max_right _ _))
  obtain ⟨m, hm, he⟩ := hP
  obtain ⟨m2, e2, n2⟩ := near_moment hu (k := 2) (a := xs.length + 4) (by norm_num) h hB hcn (by omega)
  obtain ⟨m3, e3, n3⟩ := near_moment hu (k := 3) (a := xs.length + 4) (by norm_num) h hB hcn (by omega)
  obtain ⟨m4, e4, n4⟩ := near_moment hu (k := 4) (a := xs.length + 4) (by norm_num) h hB hcn (by omega)
  have n1 := near_mean hu.nonneg h hB he
  have hne : xs.map Fl.val ≠ [] := by simpa using h
  have c2 := centralTwo_eq hne
  have c4 := centralFour_eq hne
  rw [← specMean_val] at n1
  rw [← specRawMoment_val] at n2 n3 n4
  rw [Spec.variance, c2] at hv
  have hκ0 : 0 ≤ κ := by
    rw [hκ]
    refine div_nonneg (div_nonneg (List.sum_nonneg ?_) (Nat.cast_nonneg _)) (sq_nonneg _)
    intro y hy
    obtain ⟨x, _, rfl⟩ := List.mem_map.1 hy
    exact Even.pow_nonneg (by decide) _
  obtain ⟨q, hq, hr⟩ := kurtosisResult_err hu (fun k hk => hc k (hk.trans (le_max_left _ _))) n2 n3 n4 n1 (k := κ) hv hv0
    (by rw [hδ]; ring_nf) (by rw [hκ, c4, sq]) hsmall
  rw [abs_of_nonneg hκ0] at hr
  exact ⟨q, by rw [kurtosisRun, e2, e3, e4, hm]; exact hq, hr⟩

/-- **C96** With the mean as a sum divided by the count. -/
theorem C96_lazy (hu : R.RelErr u) {B : K} (xs : List (Fl R)) (h : xs ≠ [])
    (hB : ∀ x ∈ xs, |x.val| ≤ B) (hc : R.Counts (max 6 xs.length))
    {v κ δ : K} (hv : v = Spec.variance (xs.map Fl.val)) (hv0 : 0 < v) (hκ : κ = Spec.centralMoment 4 (xs.map Fl.val) / v ^ 2)
    (hδ : δ = (1 + u) ^ (6 * xs.length + 17) - 1) (hsmall : 8 * δ * (B ^ 2 / v) ^ 2 ≤ 1) :
    ∃ q : Fl R, kurtosisRun (lazyMean 0) xs = .val q ∧
      |q.val - (κ - 3)| ≤ (1 + u) ^ 2 * ((28 + 8 * κ) * δ * (B ^ 2 / v) ^ 2) + (1 + u) * u * κ + u * |κ - 3| :=
  C96_over hu (lazyMean 0) xs h hB hc (C60_lazy_mean hu xs h fun k hk => hc k (hk.trans (le_max_right _ _))) hv hv0 hκ
    (by rw [hδ]; ring_nf) hsmall

/-- **C96** With the mean updated recursively. -/
theorem C96_immediate (hu : R.RelErr u) {B : K} (xs : List (Fl R)) (h : xs ≠ [])
    (hB : ∀ x ∈ xs, |x.val| ≤ B) (hc : R.Counts (max 6 xs.length))
    {v κ δ : K} (hv : v = Spec.variance (xs.map Fl.val)) (hv0 : 0 < v) (hκ : κ = Spec.centralMoment 4 (xs.map Fl.val) / v ^ 2)
    (hδ : δ = (1 + u) ^ (14 * xs.length + 13) - 1) (hsmall : 8 * δ * (B ^ 2 / v) ^ 2 ≤ 1) :
    ∃ q : Fl R, kurtosisRun (immMean 0) xs = .val q ∧
      |q.val - (κ - 3)| ≤ (1 + u) ^ 2 * ((28 + 8 * κ) * δ * (B ^ 2 / v) ^ 2) + (1 + u) * u * κ + u * |κ - 3| :=
  C96_over hu (immMean 0) xs h hB hc (C60_immediate_mean hu 0 xs h fun k hk => hc k (hk.trans (le_max_right _ _))) hv hv0 hκ
    (by rw [hδ]; ring_nf) hsmall

/-! ## weights -/

/-- `w` with `1 + w = (1 + u) / (1 - u)` is a relative error too. -/
theorem relErr_quot (hu : R.RelErr u) (hu1 : u < 1) {w : K} (hw : 1 + w = (1 + u) / (1 - u)) : R.RelErr w := by
  have h0 := hu.nonneg
  have : u ≤ w := by
    have : 1 + u ≤ 1 + w := by
      rw [hw, le_div_iff₀ (by linarith)]
      nlinarith
    linarith
  intro x
  exact (hu x).trans (mul_le_mul_of_nonneg_right this (abs_nonneg _))

theorem quot_pow_le (h0 : 0 ≤ u) (hu1 : u < 1) {w : K} (hw : 1 + w = (1 + u) / (1 - u)) {c n d : ℕ} (hc : c ≤ d) (hn : n ≤ d) :
    (1 + u) ^ c / (1 - u) ^ n ≤ (1 + w) ^ d := by
  rw [hw, div_pow]
  exact div_le_div₀ (pow_nonneg (by linarith) _) (pow_le_pow_right₀ (by linarith) hc) (pow_pos (by linarith) _)
    (pow_le_pow_of_le_one (by linarith) (by linarith) hn)

theorem wpow_mean_le {B : K} {k : ℕ} {ps : List (Fl R × Fl R)} (hw : ∀ p ∈ ps, 0 ≤ p.2.val)
    (hW : 0 < (ps.map fun p => p.2.val).sum) (hB : ∀ p ∈ ps, |p.1.val| ≤ B) :
    (ps.map fun p => |p.2.val * p.1.val ^ k|).sum / (ps.map fun p => p.2.val).sum ≤ B ^ k := by
  rw [div_le_iff₀ hW]
  clear hW
  induction ps with
  | nil => simp
  | cons p l ih =>
    have h1 := ih (fun y hy => hw y (by simp [hy])) fun y hy => hB y (by simp [hy])
    have h2 : |p.2.val * p.1.val ^ k| ≤ B ^ k * p.2.val := by
      rw [abs_mul, abs_of_nonneg (hw p (by simp)), abs_pow, mul_comm]
      exact mul_le_mul_of_nonneg_right (pow_le_pow_left₀ (abs_nonneg _) (hB p (by simp)) k) (hw p (by simp))
    simp only [List.map_cons, List.sum_cons]
    linarith

/-- The pairs of sample and weight as numbers. -/
def pairVal (p : Fl R × Fl R) : K × K := (p.1.val, p.2.val)

theorem wtotal_val (ps : List (Fl R × Fl R)) : Spec.wtotal (ps.map pairVal) = (ps.map fun p => p.2.val).sum := by
  rw [Spec.wtotal, List.map_map]
  rfl

theorem specWMean_val (ps : List (Fl R × Fl R)) : Spec.wmean (ps.map pairVal)
    = (ps.map fun p => p.1.val * p.2.val).sum / (ps.map fun p => p.2.val).sum := by
  rw [Spec.wmean, wtotal_val, List.map_map]
  congr 2
  exact List.map_congr_left fun p _ => mul_comm _ _

theorem wrawMoment_val (k : ℕ) (ps : List (Fl R × Fl R)) : Spec.wrawMoment k (ps.map pairVal)
    = (ps.map fun p => p.2.val * p.1.val ^ k).sum / (ps.map fun p => p.2.val).sum := by
  rw [Spec.wrawMoment, wtotal_val, List.map_map]
  rfl

theorem near_wmoment (hu : R.RelErr u) (hu1 : u < 1) {w : K} (hq : 1 + w = (1 + u) / (1 - u)) {B : K} {k a : ℕ} (hk : 0 < k)
    {ps : List (Fl R × Fl R)} (hw : ∀ p ∈ ps, 0 ≤ p.2.val) (hW : 0 < (ps.map fun p => p.2.val).sum)
    (hB : ∀ p ∈ ps, |p.1.val| ≤ B) (ha : ps.length + k + 1 ≤ a) :
    ∃ m : Fl R, weightedMomentRun k (0 : Fl R) ps = .val m ∧ Near w a m (Spec.wrawMoment k (ps.map pairVal)) (B ^ k) := by
  obtain ⟨m, hm, he⟩ := C78_moment hu hu1 hk ps hw hW
  have h0 := hu.nonneg
  have hp := wpow_mean_le (k := k) hw hW hB
  have hd := quot_pow_le h0 hu1 hq (n := ps.length) ha (by omega)
  have hA : 0 ≤ (ps.map fun p => |p.2.val * p.1.val ^ k|).sum / (ps.map fun p => p.2.val).sum :=
    div_nonneg (List.sum_nonneg (by
      intro y hy
      obtain ⟨x, _, rfl⟩ := List.mem_map.1 hy
      exact abs_nonneg _)) hW.le
  have hw0 := (relErr_quot hu hu1 hq).nonneg
  have h1 : 1 ≤ (1 + w) ^ a := one_le_pow₀ (by linarith)
  rw [← wrawMoment_val] at he
  refine ⟨m, hm, ?_, he.trans ?_⟩
  · rw [wrawMoment_val, abs_div, abs_of_pos hW]
    exact (div_le_div_of_nonneg_right (abs_sum_le (fun p : Fl R × Fl R => p.2.val * p.1.val ^ k) ps) hW.le).trans hp
  · exact mul_le_mul (by linarith) hp hA (by linarith)

theorem abs_wmean_le {B : K} {ps : List (Fl R × Fl R)} (hw : ∀ p ∈ ps, 0 ≤ p.2.val)
    (hW : 0 < (ps.map fun p => p.2.val).sum) (hB : ∀ p ∈ ps, |p.1.val| ≤ B) : |Spec.wmean (ps.map pairVal)| ≤ B := by
  have hp := wpow_mean_le (k := 1) hw hW hB
  rw [pow_one] at hp
  refine le_trans ?_ hp
  rw [specWMean_val, abs_div, abs_of_pos hW]
  refine div_le_div_of_nonneg_right ((abs_sum_le (fun p : Fl R × Fl R => p.1.val * p.2.val) ps).trans (le_of_eq ?_)) hW.le
  congr 1
  exact List.map_congr_left fun p _ => by rw [pow_one, mul_comm]

theorem near_lazyWMean (hu : R.RelErr u) (hu1 : u < 1) {w : K} (hq : 1 + w = (1 + u) / (1 - u)) {B : K}
    {ps : List (Fl R × Fl R)} (hw : ∀ p ∈ ps, 0 ≤ p.2.val) (hW : 0 < (ps.map fun p => p.2.val).sum)
    (hB : ∀ p ∈ ps, |p.1.val| ≤ B) : ∃ m : Fl R, (lazyWMean (0 : Fl R)).read ((lazyWMean 0).run ps) = .val m ∧
      |m.val - Spec.wmean (ps.map pairVal)| ≤ ((1 + w) ^ (ps.length + 2) - 1) * B := by
  obtain ⟨m, hm, he⟩ := C78_lazy_mean hu hu1 ps hw hW
  have hp := wpow_mean_le (k := 1) hw hW hB
  have hs : (ps.map fun p => |p.1.val * p.2.val|) = ps.map fun p => |p.2.val * p.1.val ^ 1| :=
    List.map_congr_left fun p _ => by rw [pow_one, mul_comm]
  have hd := quot_pow_le hu.nonneg hu1 hq (c := ps.length + 2) (n := ps.length) le_rfl (by omega)
  have hw0 := (relErr_quot hu hu1 hq).nonneg
  have h1 : 1 ≤ (1 + w) ^ (ps.length + 2) := one_le_pow₀ (by linarith)
  rw [pow_one] at hp
  rw [hs] at he
  refine ⟨m, hm, ?_⟩
  rw [specWMean_val]
  refine he.trans (mul_le_mul (by linarith) hp (div_nonneg (List.sum_nonneg ?_) hW.le) (by linarith))
  intro y hy
  obtain ⟨x, _, rfl⟩ := List.mem_map.1 hy
  exact abs_nonneg _

theorem sum_weights_pos {ps : List (Fl R × Fl R)} (h : ps ≠ []) (hw : ∀ p ∈ ps, 0 ≤ p.2.val) (hf : ∀ p ∈ ps.head?, 0 < p.2.val) :
    0 < (ps.map fun p => p.2.val).sum := by
  cases ps with
  | nil => exact absurd rfl h
  | cons p l =>
    rw [List.map_cons, List.sum_cons]
    refine add_pos_of_pos_of_nonneg (hf p (by simp)) (List.sum_nonneg ?_)
    intro y hy
    obtain ⟨x, hx, rfl⟩ := List.mem_map.1 hy
    exact hw x (by simp [hx])

theorem near_immWMean (hu : R.RelErr u) (hu1 : u < 1) {w : K} (hq : 1 + w = (1 + u) / (1 - u)) {B : K}
    {ps : List (Fl R × Fl R)} (h : ps ≠ []) (hw : ∀ p ∈ ps, 0 ≤ p.2.val) (hf : ∀ p ∈ ps.head?, 0 < p.2.val)
    (hB : ∀ p ∈ ps, |p.1.val| ≤ B) : ∃ m : Fl R, (immWMean (0 : Fl R)).read ((immWMean 0).run ps) = .val m ∧
      |m.val - Spec.wmean (ps.map pairVal)| ≤ ((1 + w) ^ (4 * ps.length) - 1) * B := by
  have hB0 : 0 ≤ B := by
    obtain ⟨p, hp⟩ := List.exists_mem_of_ne_nil _ h
    exact (abs_nonneg _).trans (hB p hp)
  obtain ⟨m, hm, he⟩ := C78_immediate_mean hu hu1 ps h hB hw hf
  refine ⟨m, hm, ?_⟩
  rw [specWMean_val]
  refine he.trans (mul_le_mul_of_nonneg_right (sub_le_sub_right ?_ 1) hB0)
  have h0 := hu.nonneg
  have hd := quot_pow_le h0 hu1 hq (c := 4 * ps.length) (n := 2 * ps.length) le_rfl (by omega)
  refine le_trans ?_ hd
  have hp : 0 < (1 - u) ^ ps.length := pow_pos (by linarith) _
  rw [div_eq_mul_inv ((1 + u) ^ _), mul_comm 2 ps.length, pow_mul (1 - u), mul_comm ((1 + u) ^ _), ← inv_pow, div_eq_mul_inv]
  refine mul_le_mul_of_nonneg_right ?_ (pow_nonneg (by linarith) _)
  nlinarith [sq_nonneg (((1 - u) ^ ps.length)⁻¹ - 1)]

/-- **C96** `weighted_kurtosis` over a provider of the weighted mean of error `((1+w)ᵉ - 1) B`, for non-negative weights;
`1 + w = (1+u)/(1-u)`, so `w` is about `2u`. -/
theorem C96_weighted_over (hu : R.RelErr u) (hu1 : u < 1) {w : K} (hq : 1 + w = (1 + u) / (1 - u))
    (P : MeanProvider (Fl R × Fl R) (Fl R)) {B : K} {e : ℕ} (ps : List (Fl R × Fl R)) (hw : ∀ p ∈ ps, 0 ≤ p.2.val)
    (hW : 0 < (ps.map fun p => p.2.val).sum) (hB : ∀ p ∈ ps, |p.1.val| ≤ B) (hc : R.Counts 6)
    (hP : ∃ m, P.read (P.run ps) = .val m ∧ |m.val - Spec.wmean (ps.map pairVal)| ≤ ((1 + w) ^ e - 1) * B)
    {v κ δ : K} (hv : v = Spec.wvariance (ps.map pairVal)) (hv0 : 0 < v)
    (hκ : κ = Spec.wcentralMoment 4 (ps.map pairVal) / v ^ 2)
    (hδ : δ = (1 + w) ^ (2 * ps.length + 4 * e + 15) - 1) (hsmall : 8 * δ * (B ^ 2 / v) ^ 2 ≤ 1) :
    ∃ q : Fl R, weightedKurtosisRun P ps = .val q ∧
      |q.val - (κ - 3)| ≤ (1 + w) ^ 2 * ((28 + 8 * κ) * δ * (B ^ 2 / v) ^ 2) + (1 + w) * w * κ + w * |κ - 3| := by
  have hr := relErr_quot hu hu1 hq
  obtain ⟨m, hm, he⟩ := hP
  obtain ⟨m2, e2, n2⟩ := near_wmoment hu hu1 hq (k := 2) (a := ps.length + 5) (by norm_num) hw hW hB (by omega)
  obtain ⟨m3, e3, n3⟩ := near_wmoment hu hu1 hq (k := 3) (a := ps.length + 5) (by norm_num) hw hW hB (by omega)
  obtain ⟨m4, e4, n4⟩ := near_wmoment hu hu1 hq (k := 4) (a := ps.length + 5) (by norm_num) hw hW hB (by omega)
  have n1 : Near w e m (Spec.wmean (ps.map pairVal)) B := ⟨abs_wmean_le hw hW hB, he⟩
  have hne : Spec.wtotal (ps.map pairVal) ≠ 0 := by rw [wtotal_val]; exact hW.ne'
  have c2 := wcentralTwo_eq hne
  have c4 := wcentralFour_eq hne
  rw [Spec.wvariance, c2] at hv
  have hκ0 : 0 ≤ κ := by
    rw [hκ]
    refine div_nonneg (div_nonneg (List.sum_nonneg ?_) (by rw [wtotal_val]; exact hW.le)) (sq_nonneg _)
    intro y hy
    obtain ⟨x, hx, rfl⟩ := List.mem_map.1 hy
    obtain ⟨p, hp, rfl⟩ := List.mem_map.1 hx
    exact mul_nonneg (hw p hp) (Even.pow_nonneg (by decide) _)
  obtain ⟨q, hq, hr⟩ := kurtosisResult_err hr hc n2 n3 n4 n1 (k := κ) hv hv0
    (by rw [hδ]; ring_nf) (by rw [hκ, c4, sq]) hsmall
  rw [abs_of_nonneg hκ0] at hr
  exact ⟨q, by rw [weightedKurtosisRun, e2, e3, e4, hm]; exact hq, hr⟩

/-- **C96** With the weighted sum divided by the sum of the weights. -/
theorem C96_weighted_lazy (hu : R.RelErr u) (hu1 : u < 1) {w : K} (hq : 1 + w = (1 + u) / (1 - u))
    {B : K} (ps : List (Fl R × Fl R)) (hw : ∀ p ∈ ps, 0 ≤ p.2.val)
    (hW : 0 < (ps.map fun p => p.2.val).sum) (hB : ∀ p ∈ ps, |p.1.val| ≤ B) (hc : R.Counts 6)
    {v κ δ : K} (hv : v = Spec.wvariance (ps.map pairVal)) (hv0 : 0 < v)
    (hκ : κ = Spec.wcentralMoment 4 (ps.map pairVal) / v ^ 2)
    (hδ : δ = (1 + w) ^ (6 * ps.length + 23) - 1) (hsmall : 8 * δ * (B ^ 2 / v) ^ 2 ≤ 1) :
    ∃ q : Fl R, weightedKurtosisRun (lazyWMean 0) ps = .val q ∧
      |q.val - (κ - 3)| ≤ (1 + w) ^ 2 * ((28 + 8 * κ) * δ * (B ^ 2 / v) ^ 2) + (1 + w) * w * κ + w * |κ - 3| :=
  C96_weighted_over hu hu1 hq (lazyWMean 0) ps hw hW hB hc (near_lazyWMean hu hu1 hq hw hW hB) hv hv0 hκ
    (by rw [hδ]; ring_nf) hsmall

/-- **C96** With the weighted mean updated recursively; the weight of the first sample has to be positive. -/
theorem C96_weighted_immediate (hu : R.RelErr u) (hu1 : u < 1) {w : K} (hq : 1 + w = (1 + u) / (1 - u))
    {B : K} (ps : List (Fl R × Fl R)) (h : ps ≠ []) (hw : ∀ p ∈ ps, 0 ≤ p.2.val) (hf : ∀ p ∈ ps.head?, 0 < p.2.val)
    (hB : ∀ p ∈ ps, |p.1.val| ≤ B) (hc : R.Counts 6)
    {v κ δ : K} (hv : v = Spec.wvariance (ps.map pairVal)) (hv0 : 0 < v)
    (hκ : κ = Spec.wcentralMoment 4 (ps.map pairVal) / v ^ 2)
    (hδ : δ = (1 + w) ^ (18 * ps.length + 15) - 1) (hsmall : 8 * δ * (B ^ 2 / v) ^ 2 ≤ 1) :
    ∃ q : Fl R, weightedKurtosisRun (immWMean 0) ps = .val q ∧
      |q.val - (κ - 3)| ≤ (1 + w) ^ 2 * ((28 + 8 * κ) * δ * (B ^ 2 / v) ^ 2) + (1 + w) * w * κ + w * |κ - 3| := by
  exact C96_weighted_over hu hu1 hq (immWMean 0) ps hw (sum_weights_pos h hw hf) hB hc (near_immWMean hu hu1 hq h hw hf hB) hv hv0 hκ
    (by rw [hδ]; ring_nf) hsmall

/-! ## where it fails -/

/-- **C96, the condition matters**: an offset of ten thousand standard deviations is enough.  The kurtosis of four equidistant
numbers is `-1.36`, and no kurtosis is less than `-2`; with `double`s that of `10000, 10001, 10002, 10003` is `-3`, and that of
`100000, 100001, 100002, 100003` exceeds `80000`. -/
theorem C96_offset_fails :
    let xs : List (Fl double) := [10000, 10001, 10002, 10003].map (Fl.ofK double)
    let ys : List (Fl double) := [100000, 100001, 100002, 100003].map (Fl.ofK double)
    (Spec.centralMoment 4 (xs.map Fl.val) / Spec.variance (xs.map Fl.val) ^ 2 - 3 = -136 / 100 ∧
      Spec.centralMoment 4 (ys.map Fl.val) / Spec.variance (ys.map Fl.val) ^ 2 - 3 = -136 / 100) ∧
    Fl.val <$> kurtosisRun (lazyMean 0) xs = .val (-3) ∧ Fl.val <$> kurtosisRun (immMean 0) xs = .val (-3) ∧
    (∃ q, kurtosisRun (lazyMean 0) ys = .val q ∧ 80000 < q.val) ∧
    (∃ q, kurtosisRun (immMean 0) ys = .val q ∧ 80000 < q.val) := by
  refine ⟨by decide +kernel, by decide +kernel, by decide +kernel, ?_, ?_⟩
  · have : ((kurtosisRun (lazyMean 0) ([100000, 100001, 100002, 100003].map (Fl.ofK double))).bind fun q =>
        if 80000 < q.val then .val () else .thrown) = .val () := by decide +kernel
    cases e : kurtosisRun (lazyMean 0) ([100000, 100001, 100002, 100003].map (Fl.ofK double)) with
    | val q =>
      rw [e] at this
      refine ⟨q, rfl, ?_⟩
      by_contra hq
      simp [Res.bind, hq] at this
    | _ => rw [e] at this; simp [Res.bind] at this
  · have : ((kurtosisRun (immMean 0) ([100000, 100001, 100002, 100003].map (Fl.ofK double))).bind fun q =>
        if 80000 < q.val then .val () else .thrown) = .val () := by decide +kernel
    cases e : kurtosisRun (immMean 0) ([100000, 100001, 100002, 100003].map (Fl.ofK double)) with
    | val q =>
      rw [e] at this
      refine ⟨q, rfl, ?_⟩
      by_contra hq
      simp [Res.bind, hq] at this
    | _ => rw [e] at this; simp [Res.bind] at this

example : ∃ q : Fl double, kurtosisRun (lazyMean 0) [0, 1, 2, 3] = .val q ∧ |q.val - (41 / 25 - 3)| ≤ 1 / 10 ^ 10 := by
  obtain ⟨q, hq, hr⟩ := C96_lazy (B := 3) (v := 5 / 4) (κ := 41 / 25) double_relErr [0, 1, 2, 3] (by simp) (by
    intro x hx
    fin_cases hx <;> decide +kernel) (double_counts (by norm_num)) (by decide +kernel) (by norm_num) (by decide +kernel) rfl
    (by norm_num)
  refine ⟨q, hq, hr.trans ?_⟩
  norm_num [abs_of_neg]

example : ∃ q : Fl double, weightedKurtosisRun (immWMean 0) [(1, 3), (-1, 1), (2, 0)] = .val q ∧
    |q.val - (7 / 3 - 3)| ≤ 1 / 10 ^ 10 := by
  obtain ⟨q, hq, hr⟩ := C96_weighted_immediate (w := (1 + 1 / 2 ^ 53) / (1 - 1 / 2 ^ 53) - 1) (B := 2) (v := 3 / 4) (κ := 7 / 3)
    double_relErr (by norm_num) (by ring) [(1, 3), (-1, 1), (2, 0)] (by simp) (by decide +kernel) (by decide +kernel) (by
      intro x hx
      fin_cases hx <;> decide +kernel) (double_counts (by norm_num)) (by decide +kernel) (by norm_num) (by decide +kernel) rfl
    (by norm_num)
  refine ⟨q, hq, hr.trans ?_⟩
  norm_num [abs_of_neg]

end Acc
