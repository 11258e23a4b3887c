import Verif.Props.StatSet
import Verif.Props.Weighted
import Verif.Props.Rolling
import Verif.Props.TailEst
import Mathlib.Algebra.QuadraticDiscriminant

/-!
# C73: the statistics of one set are consistent with each other

The theorems speak about what is extracted from one set (any set that offers the features, weighted or not, with
whatever variants and further features), as far as the elementary statistics are concerned, and about the rolling and
tail estimators.
-/

set_option linter.unusedSectionVars false

namespace Acc

open StdF

section spec
variable {K : Type} [Field K] [LinearOrder K] [IsStrictOrderedRing K]

theorem wtotal_pos {ps : List (K × K)} (hne : ps ≠ []) (h : ∀ p ∈ ps, 0 < p.2) : 0 < Spec.wtotal ps := by
  have hW0 : Spec.wtotal ps ≠ 0 := (nonzeroPrefixes_of_pos h).total hne
  have hWn : 0 ≤ Spec.wtotal ps := by
    apply List.sum_nonneg
    intro x hx
    obtain ⟨q, hq, rfl⟩ := List.mem_map.mp hx
    exact (h q hq).le
  exact lt_of_le_of_ne hWn (Ne.symm hW0)

theorem sum_affine_wx {A : Type} (l : List A) (f g : A → K) (a : K) :
    (l.map fun p => f p * (g p - a)).sum = (l.map fun p => f p * g p).sum - a * (l.map f).sum := by
  induction l with
  | nil => simp
  | cons p l ih => simp only [List.map_cons, List.sum_cons, ih]; ring

theorem wmean_sub {ps : List (K × K)} (hW : Spec.wtotal ps ≠ 0) (a : K) :
    (Spec.wmean ps - a) * Spec.wtotal ps = (ps.map fun p => p.2 * (p.1 - a)).sum := by
  rw [sum_affine_wx ps Prod.snd Prod.fst a, sub_mul]
  have : Spec.wmean ps * Spec.wtotal ps = (ps.map fun p => p.2 * p.1).sum := by
    unfold Spec.wmean
    field_simp
  rw [this]
  rfl

theorem sum_eq_zero_all {A : Type} {l : List A} {f : A → K} (h : ∀ p ∈ l, 0 ≤ f p) (h0 : (l.map f).sum = 0) :
    ∀ p ∈ l, f p = 0 := by
  induction l with
  | nil => intro p hp; cases hp
  | cons p l ih =>
    have h1 : 0 ≤ f p := h p (by simp)
    have h2 : 0 ≤ (l.map f).sum := by
      apply List.sum_nonneg
      intro x hx
      obtain ⟨q, hq, rfl⟩ := List.mem_map.mp hx
      exact h q (by simp [hq])
    rw [List.map_cons, List.sum_cons] at h0
    intro q hq
    rcases List.mem_cons.1 hq with rfl | hq
    · linarith
    · exact ih (fun q hq => h q (by simp [hq])) (by linarith) q hq

/-- A weighted mean lies between bounds of the samples; it equals one of them only if all samples do. -/
theorem wmean_bounds {ps : List (K × K)} (hne : ps ≠ []) (h : ∀ p ∈ ps, 0 < p.2) {a b : K}
    (hab : ∀ p ∈ ps, a ≤ p.1 ∧ p.1 ≤ b) :
    a ≤ Spec.wmean ps ∧ Spec.wmean ps ≤ b ∧ (Spec.wmean ps = a → ∀ p ∈ ps, p.1 = a) ∧
      (Spec.wmean ps = b → ∀ p ∈ ps, p.1 = b) := by
  have hW := wtotal_pos hne h
  have ea := wmean_sub hW.ne' a
  have eb := wmean_sub hW.ne' b
  have pa : ∀ p ∈ ps, 0 ≤ p.2 * (p.1 - a) := fun p hp => mul_nonneg (h p hp).le (sub_nonneg.2 (hab p hp).1)
  have pb : ∀ p ∈ ps, 0 ≤ -(p.2 * (p.1 - b)) := fun p hp => by
    rw [← mul_neg]
    exact mul_nonneg (h p hp).le (by have := (hab p hp).2; linarith)
  have sa : 0 ≤ (ps.map fun p => p.2 * (p.1 - a)).sum := by
    apply List.sum_nonneg
    intro x hx
    obtain ⟨q, hq, rfl⟩ := List.mem_map.mp hx
    exact pa q hq
  have sneg : (ps.map fun p => -(p.2 * (p.1 - b))).sum = -(ps.map fun p => p.2 * (p.1 - b)).sum := by
    clear * -
    induction ps with
    | nil => simp
    | cons p ps ih => simp only [List.map_cons, List.sum_cons, ih]; ring
  have sb : 0 ≤ -(ps.map fun p => p.2 * (p.1 - b)).sum := by
    rw [← sneg]
    apply List.sum_nonneg
    intro x hx
    obtain ⟨q, hq, rfl⟩ := List.mem_map.mp hx
    exact pb q hq
  refine ⟨?_, ?_, ?_, ?_⟩
  · by_contra hc
    push Not at hc
    have : (Spec.wmean ps - a) * Spec.wtotal ps < 0 := mul_neg_of_neg_of_pos (by linarith) hW
    linarith
  · by_contra hc
    push Not at hc
    have : 0 < (Spec.wmean ps - b) * Spec.wtotal ps := mul_pos (by linarith) hW
    linarith
  · intro e p hp
    rw [e, sub_self, zero_mul] at ea
    have := sum_eq_zero_all pa ea.symm p hp
    rcases mul_eq_zero.1 this with h1 | h1
    · exact absurd h1 (h p hp).ne'
    · linarith
  · intro e p hp
    rw [e, sub_self, zero_mul] at eb
    have := sum_eq_zero_all pb (by rw [sneg, ← eb, neg_zero]) p hp
    rcases mul_eq_zero.1 (neg_eq_zero.1 this) with h1 | h1
    · exact absurd h1 (h p hp).ne'
    · linarith

/-- The inequality of Bhatia and Davis. -/
theorem wvariance_bhatia {ps : List (K × K)} (hne : ps ≠ []) (h : ∀ p ∈ ps, 0 < p.2) {a b : K}
    (hab : ∀ p ∈ ps, a ≤ p.1 ∧ p.1 ≤ b) :
    Spec.wvariance ps ≤ (b - Spec.wmean ps) * (Spec.wmean ps - a) := by
  have hW := wtotal_pos hne h
  have key : 0 ≤ (ps.map fun p => p.2 * ((b - p.1) * (p.1 - a))).sum := by
    apply List.sum_nonneg
    intro x hx
    obtain ⟨q, hq, rfl⟩ := List.mem_map.mp hx
    exact mul_nonneg (h q hq).le (mul_nonneg (sub_nonneg.2 (hab q hq).2) (sub_nonneg.2 (hab q hq).1))
  have e : (ps.map fun p => p.2 * ((b - p.1) * (p.1 - a))).sum
      = (a + b) * (ps.map fun p => p.2 * p.1).sum - (ps.map fun p => p.2 * p.1 ^ 2).sum
        - a * b * (ps.map Prod.snd).sum := by
    clear * -
    induction ps with
    | nil => simp
    | cons p ps ih => simp only [List.map_cons, List.sum_cons, ih]; ring
  have e1 : (ps.map fun p => p.2 * p.1).sum = Spec.wmean ps * Spec.wtotal ps := by
    unfold Spec.wmean
    field_simp
  have e2 : (ps.map fun p => p.2 * p.1 ^ 2).sum = Spec.wrawMoment 2 ps * Spec.wtotal ps := by
    unfold Spec.wrawMoment
    field_simp
  have e3 : (ps.map Prod.snd).sum = Spec.wtotal ps := rfl
  rw [e, e1, e2, e3] at key
  have key' : 0 ≤ ((a + b) * Spec.wmean ps - Spec.wrawMoment 2 ps - a * b) * Spec.wtotal ps := by
    calc 0 ≤ _ := key
      _ = _ := by ring
  have := nonneg_of_mul_nonneg_left key' hW
  unfold Spec.wvariance
  rw [wcentralTwo_eq hW.ne']
  linarith

/-- Cauchy and Schwarz for weighted sums. -/
theorem wsum_cauchy {A : Type} (l : List A) (f g u : A → K) (h : ∀ p ∈ l, 0 ≤ u p) :
    (l.map fun p => u p * (f p * g p)).sum ^ 2
      ≤ (l.map fun p => u p * f p ^ 2).sum * (l.map fun p => u p * g p ^ 2).sum := by
  have hd : discrim (l.map fun p => u p * f p ^ 2).sum (2 * (l.map fun p => u p * (f p * g p)).sum)
      (l.map fun p => u p * g p ^ 2).sum ≤ 0 := by
    apply discrim_le_zero
    intro t
    have e : (l.map fun p => u p * f p ^ 2).sum * (t * t) + 2 * (l.map fun p => u p * (f p * g p)).sum * t
        + (l.map fun p => u p * g p ^ 2).sum = (l.map fun p => u p * (f p * t + g p) ^ 2).sum := by
      clear * -
      induction l with
      | nil => simp
      | cons p l ih => simp only [List.map_cons, List.sum_cons, ← ih]; ring
    rw [e]
    apply List.sum_nonneg
    intro x hx
    obtain ⟨q, hq, rfl⟩ := List.mem_map.mp hx
    exact mul_nonneg (h q hq) (sq_nonneg _)
  unfold discrim at hd
  nlinarith

theorem wcovariance_cauchy {ps : List ((K × K) × K)} (hne : ps ≠ []) (h : ∀ p ∈ ps, 0 < p.2) :
    Spec.wcovariance ps ^ 2
      ≤ Spec.wvariance (ps.map fun q => (q.1.1, q.2)) * Spec.wvariance (ps.map fun q => (q.1.2, q.2)) := by
  have hW : 0 < Spec.wtotal (ps.map fun q => (q.1.1, q.2)) :=
    wtotal_pos (by simpa using hne) (by
      intro p hp
      obtain ⟨q, hq, rfl⟩ := List.mem_map.1 hp
      exact h q hq)
  have e : Spec.wtotal (ps.map fun q => (q.1.2, q.2)) = Spec.wtotal (ps.map fun q => (q.1.1, q.2)) := by
    simp [Spec.wtotal, List.map_map, Function.comp_def]
  unfold Spec.wcovariance Spec.wvariance Spec.wcentralMoment
  rw [e]
  rw [div_pow, div_mul_div_comm, ← pow_two]
  apply div_le_div_of_nonneg_right _ (by positivity)
  have := wsum_cauchy ps (fun p => p.1.1 - Spec.wmean (ps.map fun q => (q.1.1, q.2)))
    (fun p => p.1.2 - Spec.wmean (ps.map fun q => (q.1.2, q.2))) Prod.snd (fun p hp => (h p hp).le)
  simpa only [List.map_map, Function.comp_def] using this

/-- Pearson: the weighted kurtosis is at least the squared skewness minus two. -/
theorem wcentral_pearson {ps : List (K × K)} (hne : ps ≠ []) (h : ∀ p ∈ ps, 0 < p.2) :
    Spec.wcentralMoment 3 ps ^ 2 + Spec.wcentralMoment 2 ps ^ 3
      ≤ Spec.wcentralMoment 2 ps * Spec.wcentralMoment 4 ps := by
  have hW := wtotal_pos hne h
  set m := Spec.wmean ps with hm
  set V := Spec.wcentralMoment 2 ps with hV
  have h1 : (ps.map fun p => p.2 * (p.1 - m)).sum = 0 := by
    rw [← wmean_sub hW.ne' m, hm, sub_self, zero_mul]
  have s2 : (ps.map fun p => p.2 * (p.1 - m) ^ 2).sum = V * Spec.wtotal ps := by
    rw [hV, hm]; unfold Spec.wcentralMoment; field_simp
  have s3 : (ps.map fun p => p.2 * (p.1 - m) ^ 3).sum = Spec.wcentralMoment 3 ps * Spec.wtotal ps := by
    rw [hm]; unfold Spec.wcentralMoment; field_simp
  have s4 : (ps.map fun p => p.2 * (p.1 - m) ^ 4).sum = Spec.wcentralMoment 4 ps * Spec.wtotal ps := by
    rw [hm]; unfold Spec.wcentralMoment; field_simp
  have s0 : (ps.map Prod.snd).sum = Spec.wtotal ps := rfl
  have c := wsum_cauchy ps (fun p => p.1 - m) (fun p => (p.1 - m) ^ 2 - V) Prod.snd (fun p hp => (h p hp).le)
  have e1 : ∀ m V : K, (ps.map fun p => p.2 * ((p.1 - m) * ((p.1 - m) ^ 2 - V))).sum
      = (ps.map fun p => p.2 * (p.1 - m) ^ 3).sum - V * (ps.map fun p => p.2 * (p.1 - m)).sum := by
    intro m V
    clear * -
    induction ps with
    | nil => simp
    | cons p ps ih => simp only [List.map_cons, List.sum_cons, ih]; ring
  have e2 : ∀ m V : K, (ps.map fun p => p.2 * ((p.1 - m) ^ 2 - V) ^ 2).sum
      = (ps.map fun p => p.2 * (p.1 - m) ^ 4).sum - 2 * V * (ps.map fun p => p.2 * (p.1 - m) ^ 2).sum
        + V ^ 2 * (ps.map Prod.snd).sum := by
    intro m V
    clear * -
    induction ps with
    | nil => simp
    | cons p ps ih => simp only [List.map_cons, List.sum_cons, ih]; ring
  rw [e1, e2, h1, s2, s3, s4, s0] at c
  have c' : Spec.wtotal ps ^ 2 * Spec.wcentralMoment 3 ps ^ 2
      ≤ Spec.wtotal ps ^ 2 * (V * (Spec.wcentralMoment 4 ps - V ^ 2)) := by
    calc _ = (Spec.wcentralMoment 3 ps * Spec.wtotal ps - V * 0) ^ 2 := by ring
      _ ≤ _ := c
      _ = _ := by ring
  have := le_of_mul_le_mul_left c' (by positivity)
  nlinarith

/-- The stream as (sample, weight), every weight being one in a set without weights. -/
def Spec.xws (w : Bool) (as : List (Args K)) : List (K × K) := as.map fun a => (a.x, if w then a.w else 1)

def Spec.vws (w : Bool) (v : ℕ) (as : List (Args K)) : List (K × K) := as.map fun a => (a.v v, if w then a.w else 1)

variable {w : Bool} {v : ℕ} {as : List (Args K)} {r : Res K}

theorem xws_true : Spec.xws true as = as.map fun a => (a.x, a.w) := rfl
theorem xws_false : Spec.xws false as = (as.map fun a => a.x).map fun x => (x, 1) := by
  simp [Spec.xws, List.map_map, Function.comp_def]
theorem vws_false : Spec.vws false v as = (as.map fun a => a.v v).map fun x => (x, 1) := by
  simp [Spec.vws, List.map_map, Function.comp_def]

theorem isStat_mean (h : Spec.IsStat w v as StdF.mean r) : r = .val (Spec.wmean (Spec.xws w as)) := by
  cases w with
  | true => exact h
  | false => rw [xws_false, unit_wmean]; exact h

theorem isStat_variance (h : Spec.IsStat w v as StdF.variance r) : r = .val (Spec.wvariance (Spec.xws w as)) := by
  cases w with
  | true => exact h
  | false => rw [xws_false, Spec.wvariance, unit_wcentral]; exact h

theorem isStat_moment {n : ℕ} (h : Spec.IsStat w v as (StdF.moment n) r) :
    r = .val (Spec.wrawMoment n (Spec.xws w as)) := by
  cases w with
  | true => exact h
  | false => rw [xws_false, unit_wraw]; exact h

theorem isStat_covariance (h : Spec.IsStat w v as StdF.abstractCovariance r) :
    r = .val (Spec.wcovariance (as.map fun a => ((a.x, a.v v), if w then a.w else 1))) := by
  cases w with
  | true => exact h
  | false =>
    refine Eq.trans h ?_
    congr 1
    have e1 := unit_wmean (as.map fun a => a.x)
    have e2 := unit_wmean (as.map fun a => a.v v)
    have e3 := unit_wtotal (as.map fun a => a.x)
    simp only [List.map_map, Function.comp_def, List.length_map] at e1 e2 e3
    simp [Spec.wcovariance, Spec.covariance, List.map_map, Function.comp_def, one_mul, e1, e2, e3]

theorem xws_pos (hpos : w = true → ∀ a ∈ as, 0 < a.w) : ∀ p ∈ Spec.xws w as, 0 < p.2 := by
  intro p hp
  obtain ⟨a, ha, rfl⟩ := List.mem_map.1 hp
  cases w with
  | true => exact hpos rfl a ha
  | false => exact one_pos

theorem vws_pos (hpos : w = true → ∀ a ∈ as, 0 < a.w) : ∀ p ∈ Spec.vws w v as, 0 < p.2 := by
  intro p hp
  obtain ⟨a, ha, rfl⟩ := List.mem_map.1 hp
  cases w with
  | true => exact hpos rfl a ha
  | false => exact one_pos

theorem wcentralTwo_ne (hne : as ≠ []) (hpos : w = true → ∀ a ∈ as, 0 < a.w)
    (h2 : ∃ a ∈ as, ∃ b ∈ as, a.x ≠ b.x) : Spec.wcentralMoment 2 (Spec.xws w as) ≠ 0 := by
  have hnx : Spec.xws w as ≠ [] := by simpa [Spec.xws] using hne
  have hW := wtotal_pos hnx (xws_pos hpos)
  intro z
  have z' : ((Spec.xws w as).map fun p => p.2 * (p.1 - Spec.wmean (Spec.xws w as)) ^ 2).sum = 0 := by
    unfold Spec.wcentralMoment at z
    rcases div_eq_zero_iff.1 z with h | h
    · exact h
    · exact absurd h hW.ne'
  have all := sum_eq_zero_all (fun p hp => mul_nonneg (xws_pos hpos p hp).le (sq_nonneg _)) z'
  have key : ∀ q ∈ as, q.x = Spec.wmean (Spec.xws w as) := by
    intro q hq
    have hq' : (q.x, if w then q.w else 1) ∈ Spec.xws w as := List.mem_map.2 ⟨q, hq, rfl⟩
    rcases mul_eq_zero.1 (all _ hq') with h | h
    · exact absurd h (xws_pos hpos _ hq').ne'
    · exact sub_eq_zero.1 (pow_eq_zero_iff (two_ne_zero) |>.1 h)
  obtain ⟨a, ha, b, hb, hab⟩ := h2
  exact hab ((key a ha).trans (key b hb).symm)

end spec

section sets
variable {K : Type} [Field K] [LinearOrder K] [IsStrictOrderedRing K]
variable {irr : StdF → ℕ → (StdF → Res K) → Res K} (hirr : IrrOk irr) (w : Bool) {v0 : ℕ} {lo hi : K}
variable {ord : List (Tag StdF) → List (Tag StdF)} (hord : ∀ l, (ord l).Perm l)
    (req : List (Tag StdF)) (hb : ∀ t ∈ stdLib.asList w req, basic w v0 t.base = true) {as : List (Args K)}
    (hne : as ≠ []) (hpos : w = true → ∀ a ∈ as, 0 < a.w) (hlim : ∀ a ∈ as, lo ≤ a.x ∧ a.x ≤ hi)

include hirr hord hb hne hpos hlim

theorem statRun_isStat {k : StdF} (hk : ∃ r ∈ req, stdLib.tkey r = k) (h1 : k ≠ skewness) (h2 : k ≠ errorOfMean) :
    Spec.IsStat w v0 as k (statRun irr lo hi w ord req as k) := by
  obtain ⟨r, hr, rfl⟩ := hk
  exact C65_statistics hirr w hord req hb hne hpos hlim hr h1 h2

/-- **C73** In any set offering `min`, `max` and `mean` (any variant): the mean lies between the two, and equals one
of them only if all three are equal. -/
theorem C73_mean_within (h1 : ∃ r ∈ req, stdLib.tkey r = StdF.min) (h2 : ∃ r ∈ req, stdLib.tkey r = StdF.max)
    (h3 : ∃ r ∈ req, stdLib.tkey r = StdF.mean) :
    ∃ a b m, statRun irr lo hi w ord req as StdF.min = .val a ∧ statRun irr lo hi w ord req as StdF.max = .val b ∧
      statRun irr lo hi w ord req as StdF.mean = .val m ∧ a ≤ m ∧ m ≤ b ∧ (m = a ↔ a = b) ∧ (m = b ↔ a = b) := by
  obtain ⟨a, ea, ha⟩ := statRun_isStat hirr w hord req hb hne hpos hlim h1 (by decide) (by decide)
  obtain ⟨b, eb, hb'⟩ := statRun_isStat hirr w hord req hb hne hpos hlim h2 (by decide) (by decide)
  have em := isStat_mean (statRun_isStat hirr w hord req hb hne hpos hlim h3 (by decide) (by decide))
  have hab : ∀ p ∈ Spec.xws w as, a ≤ p.1 ∧ p.1 ≤ b := by
    intro p hp
    obtain ⟨q, hq, rfl⟩ := List.mem_map.1 hp
    exact ⟨ha.2 ⟨q, hq, rfl⟩, hb'.2 ⟨q, hq, rfl⟩⟩
  obtain ⟨k1, k2, k3, k4⟩ := wmean_bounds (by simpa [Spec.xws] using hne) (xws_pos hpos) hab
  obtain ⟨qa, hqa, xa⟩ := ha.1
  obtain ⟨qb, hqb, xb⟩ := hb'.1
  refine ⟨a, b, _, ea, eb, em, k1, k2, ⟨fun e => ?_, fun e => ?_⟩, ⟨fun e => ?_, fun e => ?_⟩⟩
  · have := k3 e _ (List.mem_map.2 ⟨qb, hqb, rfl⟩)
    rw [← xb]; exact this.symm
  · exact le_antisymm (e ▸ k2) k1
  · have := k4 e _ (List.mem_map.2 ⟨qa, hqa, rfl⟩)
    rw [← xa]; exact this
  · exact le_antisymm k2 (e ▸ k1)

/-- **C73** In any set offering `min`, `max`, `mean` and `variance`: the variance is at most the product of the
distances of the mean from the extremes, and at most a quarter of the squared range; it is zero only if the extremes
are equal. -/
theorem C73_variance_bounds (h1 : ∃ r ∈ req, stdLib.tkey r = StdF.min) (h2 : ∃ r ∈ req, stdLib.tkey r = StdF.max)
    (h3 : ∃ r ∈ req, stdLib.tkey r = StdF.mean) (h4 : ∃ r ∈ req, stdLib.tkey r = StdF.variance) :
    ∃ a b m v, statRun irr lo hi w ord req as StdF.min = .val a ∧ statRun irr lo hi w ord req as StdF.max = .val b ∧
      statRun irr lo hi w ord req as StdF.mean = .val m ∧ statRun irr lo hi w ord req as StdF.variance = .val v ∧
      0 ≤ v ∧ v ≤ (b - m) * (m - a) ∧ 4 * v ≤ (b - a) ^ 2 ∧ (v = 0 ↔ a = b) := by
  obtain ⟨a, ea, ha⟩ := statRun_isStat hirr w hord req hb hne hpos hlim h1 (by decide) (by decide)
  obtain ⟨b, eb, hb'⟩ := statRun_isStat hirr w hord req hb hne hpos hlim h2 (by decide) (by decide)
  have em := isStat_mean (statRun_isStat hirr w hord req hb hne hpos hlim h3 (by decide) (by decide))
  have ev := isStat_variance (statRun_isStat hirr w hord req hb hne hpos hlim h4 (by decide) (by decide))
  have hab : ∀ p ∈ Spec.xws w as, a ≤ p.1 ∧ p.1 ≤ b := by
    intro p hp
    obtain ⟨q, hq, rfl⟩ := List.mem_map.1 hp
    exact ⟨ha.2 ⟨q, hq, rfl⟩, hb'.2 ⟨q, hq, rfl⟩⟩
  have hnx : Spec.xws w as ≠ [] := by simpa [Spec.xws] using hne
  have hv := wvariance_bhatia hnx (xws_pos hpos) hab
  have hv0 := wvariance_nonneg (xws_pos (as := as) hpos)
  have h4v : 4 * Spec.wvariance (Spec.xws w as) ≤ (b - a) ^ 2 := by
    nlinarith [sq_nonneg (2 * Spec.wmean (Spec.xws w as) - a - b)]
  refine ⟨a, b, _, _, ea, eb, em, ev, hv0, hv, h4v, ⟨fun e => ?_, fun e => ?_⟩⟩
  · have hW := wtotal_pos hnx (xws_pos hpos)
    have z : ((Spec.xws w as).map fun p => p.2 * (p.1 - Spec.wmean (Spec.xws w as)) ^ 2).sum = 0 := by
      unfold Spec.wvariance Spec.wcentralMoment at e
      rcases div_eq_zero_iff.1 e with h | h
      · exact h
      · exact absurd h hW.ne'
    have all := sum_eq_zero_all (fun p hp => mul_nonneg (xws_pos hpos p hp).le (sq_nonneg _)) z
    have key : ∀ q ∈ as, q.x = Spec.wmean (Spec.xws w as) := by
      intro q hq
      have hq' : (q.x, if w then q.w else 1) ∈ Spec.xws w as := List.mem_map.2 ⟨q, hq, rfl⟩
      rcases mul_eq_zero.1 (all _ hq') with h | h
      · exact absurd h (xws_pos hpos _ hq').ne'
      · have := pow_eq_zero_iff (two_ne_zero) |>.1 h
        exact sub_eq_zero.1 this
    obtain ⟨qa, hqa, xa⟩ := ha.1
    obtain ⟨qb, hqb, xb⟩ := hb'.1
    rw [← xa, ← xb, key qa hqa, key qb hqb]
  · subst e
    nlinarith

/-- **C73** In any set: the variance is the second moment minus the squared mean, the sum is the mean times the count
(times the sum of weights in a weighted set), and the sum of weights is their mean times the count. -/
theorem C73_identities :
    ((∃ r ∈ req, stdLib.tkey r = StdF.variance) → (∃ r ∈ req, stdLib.tkey r = StdF.mean) →
      (∃ r ∈ req, stdLib.tkey r = StdF.moment 2) → ∃ m m2,
      statRun irr lo hi w ord req as StdF.mean = .val m ∧ statRun irr lo hi w ord req as (StdF.moment 2) = .val m2 ∧
      statRun irr lo hi w ord req as StdF.variance = .val (m2 - m ^ 2) ∧ m ^ 2 ≤ m2) ∧
    (w = false → (∃ r ∈ req, stdLib.tkey r = StdF.sum) → (∃ r ∈ req, stdLib.tkey r = StdF.mean) →
      (∃ r ∈ req, stdLib.tkey r = StdF.count) → ∃ m n,
      statRun irr lo hi w ord req as StdF.mean = .val m ∧ statRun irr lo hi w ord req as StdF.count = .val n ∧
      statRun irr lo hi w ord req as StdF.sum = .val (m * n)) ∧
    (w = true → (∃ r ∈ req, stdLib.tkey r = StdF.sum) → (∃ r ∈ req, stdLib.tkey r = StdF.mean) →
      (∃ r ∈ req, stdLib.tkey r = StdF.sumOfWeights) → ∃ m W,
      statRun irr lo hi w ord req as StdF.mean = .val m ∧ statRun irr lo hi w ord req as StdF.sumOfWeights = .val W ∧
      statRun irr lo hi w ord req as StdF.sum = .val (m * W) ∧ 0 < W) ∧
    ((∃ r ∈ req, stdLib.tkey r = StdF.sumOfWeights) → (∃ r ∈ req, stdLib.tkey r = StdF.meanOfWeights) →
      (∃ r ∈ req, stdLib.tkey r = StdF.count) → ∃ m n,
      statRun irr lo hi w ord req as StdF.meanOfWeights = .val m ∧ statRun irr lo hi w ord req as StdF.count = .val n ∧
      statRun irr lo hi w ord req as StdF.sumOfWeights = .val (m * n)) := by
  have hn : (as.length : K) ≠ 0 := by
    have : as.length ≠ 0 := fun h => hne (List.length_eq_zero_iff.1 h)
    exact_mod_cast this
  have hnx : Spec.xws w as ≠ [] := by simpa [Spec.xws] using hne
  have hW := wtotal_pos hnx (xws_pos hpos)
  have S : ∀ {k : StdF}, (∃ r ∈ req, stdLib.tkey r = k) → k ≠ skewness → k ≠ errorOfMean →
      Spec.IsStat w v0 as k (statRun irr lo hi w ord req as k) :=
    fun h => statRun_isStat hirr w hord req hb hne hpos hlim h
  refine ⟨fun h1 h2 h3 => ?_, fun hw h1 h2 h3 => ?_, fun hw h1 h2 h3 => ?_, fun h1 h2 h3 => ?_⟩
  · have ev := isStat_variance (S h1 (by decide) (by decide))
    refine ⟨_, _, isStat_mean (S h2 (by decide) (by decide)), isStat_moment (S h3 (by decide) (by decide)), ?_, ?_⟩
    · rw [ev, Spec.wvariance, wcentralTwo_eq hW.ne', sq]
    · have := wvariance_nonneg (xws_pos (as := as) hpos)
      rw [Spec.wvariance, wcentralTwo_eq hW.ne'] at this
      nlinarith
  · subst hw
    refine ⟨_, _, S h2 (by decide) (by decide), S h3 (by decide) (by decide), ?_⟩
    refine Eq.trans (S h1 (by decide) (by decide)) ?_
    simp only [Bool.false_eq_true, if_false, Spec.mean, List.length_map]
    congr 1
    field_simp
  · subst hw
    refine ⟨_, _, S h2 (by decide) (by decide), S h3 (by decide) (by decide), ?_, ?_⟩
    · refine Eq.trans (S h1 (by decide) (by decide)) ?_
      have e : Spec.wtotal (as.map fun a => (a.x, a.w)) = (as.map fun a => a.w).sum := by
        simp [Spec.wtotal, List.map_map, Function.comp_def]
      rw [xws_true, e] at hW
      simp only [if_true, Spec.wmean, e, List.map_map, Function.comp_def]
      congr 1
      field_simp
    · have e : Spec.wtotal (as.map fun a => (a.x, a.w)) = (as.map fun a => a.w).sum := by
        simp [Spec.wtotal, List.map_map, Function.comp_def]
      rw [← e]
      exact hW
  · refine ⟨_, _, S h2 (by decide) (by decide), S h3 (by decide) (by decide), ?_⟩
    refine Eq.trans (S h1 (by decide) (by decide)) ?_
    simp only [Spec.mean, List.length_map]
    congr 1
    field_simp

/-- **C73** In any set offering a covariance and a variance: the squared covariance is at most the variance of the
samples times that of the covariates, as reported by any other set which receives the covariates as its samples. -/
theorem C73_cauchy_schwarz {irr' : StdF → ℕ → (StdF → Res K) → Res K} (hirr' : IrrOk irr') {v1 : ℕ} {lo' hi' : K}
    {ord' : List (Tag StdF) → List (Tag StdF)} (hord' : ∀ l, (ord' l).Perm l) (req' : List (Tag StdF))
    (hb' : ∀ t ∈ stdLib.asList w req', basic w v1 t.base = true)
    (hlim' : ∀ a ∈ as, lo' ≤ a.v v0 ∧ a.v v0 ≤ hi')
    (h1 : ∃ r ∈ req, stdLib.tkey r = StdF.variance) (h2 : ∃ r ∈ req, stdLib.tkey r = StdF.abstractCovariance)
    (h3 : ∃ r ∈ req', stdLib.tkey r = StdF.variance) :
    ∃ v v' c, statRun irr lo hi w ord req as StdF.variance = .val v ∧
      statRun irr lo hi w ord req as StdF.abstractCovariance = .val c ∧
      statRun irr' lo' hi' w ord' req' (as.map fun a => { a with x := a.v v0 }) StdF.variance = .val v' ∧
      c ^ 2 ≤ v * v' := by
  have ev := isStat_variance (statRun_isStat hirr w hord req hb hne hpos hlim h1 (by decide) (by decide))
  have ec := isStat_covariance (statRun_isStat hirr w hord req hb hne hpos hlim h2 (by decide) (by decide))
  have ev' := isStat_variance (statRun_isStat hirr' w hord' req' hb' (as := as.map fun a => { a with x := a.v v0 })
    (by simpa using hne)
    (by
      intro hw a ha
      obtain ⟨b, hb, rfl⟩ := List.mem_map.1 ha
      exact hpos hw b hb)
    (by
      intro a ha
      obtain ⟨b, hb, rfl⟩ := List.mem_map.1 ha
      exact hlim' b hb) h3 (by decide) (by decide))
  refine ⟨_, _, _, ev, ec, ev', ?_⟩
  have := wcovariance_cauchy (ps := as.map fun a => ((a.x, a.v v0), if w then a.w else 1)) (by simpa using hne)
    (by
      intro p hp
      obtain ⟨a, ha, rfl⟩ := List.mem_map.1 hp
      exact xws_pos hpos _ (List.mem_map.2 ⟨a, ha, rfl⟩))
  simpa only [List.map_map, Function.comp_def, Spec.xws] using this

/-- **C73** In any set offering `kurtosis`, with samples that are not all equal, the kurtosis is at least -2. -/
theorem C73_kurtosis_bound (h1 : ∃ r ∈ req, stdLib.tkey r = StdF.kurtosis) (h2 : ∃ a ∈ as, ∃ b ∈ as, a.x ≠ b.x) :
    ∃ k, statRun irr lo hi w ord req as StdF.kurtosis = .val k ∧ -2 ≤ k := by
  have S := statRun_isStat hirr w hord req hb hne hpos hlim h1 (by decide) (by decide)
  have hnx : Spec.xws w as ≠ [] := by simpa [Spec.xws] using hne
  have hW := wtotal_pos hnx (xws_pos hpos)
  have e : ∀ n, (if w then Spec.wcentralMoment n (as.map fun a => (a.x, a.w))
      else Spec.centralMoment n (as.map fun a => a.x)) = Spec.wcentralMoment n (Spec.xws w as) := by
    intro n
    cases w with
    | true => rfl
    | false => rw [xws_false, unit_wcentral]; rfl
  have hv : 0 ≤ Spec.wcentralMoment 2 (Spec.xws w as) := wvariance_nonneg (xws_pos hpos)
  have hv0 := wcentralTwo_ne hne hpos h2
  simp only [Spec.IsStat, e, hv0, if_false] at S
  refine ⟨_, S, ?_⟩
  have hp := wcentral_pearson hnx (xws_pos hpos)
  have hvp : 0 < Spec.wcentralMoment 2 (Spec.xws w as) := lt_of_le_of_ne hv (Ne.symm hv0)
  have : 1 ≤ Spec.wcentralMoment 4 (Spec.xws w as) / Spec.wcentralMoment 2 (Spec.xws w as) ^ 2 := by
    rw [le_div_iff₀ (by positivity), one_mul]
    have h3 : Spec.wcentralMoment 2 (Spec.xws w as) * Spec.wcentralMoment 2 (Spec.xws w as) ^ 2
        ≤ Spec.wcentralMoment 2 (Spec.xws w as) * Spec.wcentralMoment 4 (Spec.xws w as) := by
      nlinarith [sq_nonneg (Spec.wcentralMoment 3 (Spec.xws w as))]
    exact le_of_mul_le_mul_left h3 hvp
  linarith

end sets

/-- **C73** Over the reals, in any set offering both: kurtosis is at least the squared skewness minus two (weighted or
not). -/
theorem C73_pearson (bits : ℕ) (w : Bool) {v0 : ℕ} {lo hi : ℝ} {ord : List (Tag StdF) → List (Tag StdF)}
    (hord : ∀ l, (ord l).Perm l) (req : List (Tag StdF))
    (hb : ∀ t ∈ stdLib.asList w req, basic w v0 t.base = true) {as : List (Args ℝ)} (hne : as ≠ [])
    (hbits : as.length < 2 ^ bits) (hpos : w = true → ∀ a ∈ as, 0 < a.w) (hlim : ∀ a ∈ as, lo ≤ a.x ∧ a.x ≤ hi)
    (h1 : ∃ r ∈ req, stdLib.tkey r = StdF.kurtosis) (h2 : ∃ r ∈ req, stdLib.tkey r = StdF.skewness)
    (h3 : ∃ a ∈ as, ∃ b ∈ as, a.x ≠ b.x) :
    ∃ s k, statRun (irrational bits) lo hi w ord req as StdF.skewness = .val s ∧
      statRun (irrational bits) lo hi w ord req as StdF.kurtosis = .val k ∧ s ^ 2 - 2 ≤ k := by
  obtain ⟨r1, hr1, e1⟩ := h1
  obtain ⟨r2, hr2, e2⟩ := h2
  have S1 := C65_real bits w hord req hb hne hbits hpos hlim hr1
  have S2 := C65_real bits w hord req hb hne hbits hpos hlim hr2
  rw [e1] at S1
  rw [e2] at S2
  have hnx : Spec.xws w as ≠ [] := by simpa [Spec.xws] using hne
  have hW := wtotal_pos hnx (xws_pos hpos)
  have e : ∀ n, (if w then Spec.wcentralMoment n (as.map fun a => (a.x, a.w))
      else Spec.centralMoment n (as.map fun a => a.x)) = Spec.wcentralMoment n (Spec.xws w as) := by
    intro n
    cases w with
    | true => rfl
    | false => rw [xws_false, unit_wcentral]; rfl
  have hv : 0 ≤ Spec.wcentralMoment 2 (Spec.xws w as) := wvariance_nonneg (xws_pos hpos)
  have hv0 := wcentralTwo_ne hne hpos h3
  simp only [Spec.IsStatReal, Spec.IsStat, e, hv0, if_false] at S1 S2
  refine ⟨_, _, S2, S1, ?_⟩
  have hp := wcentral_pearson hnx (xws_pos hpos)
  have hvp : 0 < Spec.wcentralMoment 2 (Spec.xws w as) := lt_of_le_of_ne hv (Ne.symm hv0)
  have hs : (Spec.wcentralMoment 2 (Spec.xws w as) ^ (3 / 2 : ℝ)) ^ 2 = Spec.wcentralMoment 2 (Spec.xws w as) ^ 3 := by
    rw [← Real.rpow_natCast (_ ^ (3 / 2 : ℝ)) 2, ← Real.rpow_mul hv, ← Real.rpow_natCast _ 3]
    norm_num
  rw [div_pow, hs]
  have h4 : Spec.wcentralMoment 3 (Spec.xws w as) ^ 2 / Spec.wcentralMoment 2 (Spec.xws w as) ^ 3 + 1
      ≤ Spec.wcentralMoment 4 (Spec.xws w as) / Spec.wcentralMoment 2 (Spec.xws w as) ^ 2 := by
    rw [div_add_one (by positivity), div_le_div_iff₀ (by positivity) (by positivity)]
    have := mul_le_mul_of_nonneg_right hp (show 0 ≤ Spec.wcentralMoment 2 (Spec.xws w as) ^ 2 by positivity)
    calc _ ≤ _ := this
      _ = _ := by ring
  linarith

section rolling
variable {K : Type} [Field K] [LinearOrder K] [IsStrictOrderedRing K]

theorem mean_bounds {xs : List K} (hne : xs ≠ []) {a b : K} (hab : ∀ x ∈ xs, a ≤ x ∧ x ≤ b) :
    a ≤ Spec.mean xs ∧ Spec.mean xs ≤ b := by
  have := wmean_bounds (ps := xs.map fun x => (x, (1 : K))) (by simpa using hne)
    (by intro p hp; obtain ⟨x, hx, rfl⟩ := List.mem_map.1 hp; exact one_pos) (a := a) (b := b)
    (by intro p hp; obtain ⟨x, hx, rfl⟩ := List.mem_map.1 hp; exact hab x hx)
  rw [unit_wmean] at this
  exact ⟨this.1, this.2.1⟩

/-- **C73** The rolling mean lies between the extremes of the window, so between `min` and `max` of the whole stream;
the rolling variance, multiplied by `k - 1` for a window of `k` samples, is at most `k` quarters of the squared range. -/
theorem C73_rolling (kind : RollMeanKind) {N : ℕ} (hN : 0 < N) {xs : List K} (hne : xs ≠ []) {lo hi : K}
    (hlim : ∀ x ∈ xs, lo ≤ x ∧ x ≤ hi) :
    ∃ m v, (rollRun kind N 0 xs).mean kind = .val m ∧
      (rollRun kind N 0 xs).var.result (rollRun kind N 0 xs).b = .val v ∧
      minRun ltb hi xs ≤ m ∧ m ≤ maxRun ltb lo xs ∧
      0 ≤ v ∧ 4 * (((min xs.length N : ℕ) : K) - 1) * v
        ≤ ((min xs.length N : ℕ) : K) * (maxRun ltb lo xs - minRun ltb hi xs) ^ 2 := by
  have hmin := (C09_min hi xs hne fun x hx => (hlim x hx).2).2
  have hmax := (C09_max lo xs hne fun x hx => (hlim x hx).1).2
  set W := xs.drop (xs.length - N) with hW
  have hlen : W.length = min xs.length N := by rw [hW, List.length_drop]; omega
  have hWne : W ≠ [] := by
    intro h0
    rw [h0] at hlen
    have : 0 < xs.length := List.length_pos_iff.2 hne
    simp at hlen
    omega
  have hsub : ∀ x ∈ W, minRun ltb hi xs ≤ x ∧ x ≤ maxRun ltb lo xs :=
    fun x hx => ⟨hmin (List.mem_of_mem_drop hx), hmax (List.mem_of_mem_drop hx)⟩
  obtain ⟨h1, h2⟩ := mean_bounds hWne hsub
  obtain ⟨v, hv, hv0⟩ := C14_nonneg kind N hN xs
  refine ⟨_, v, C13_mean kind N hN xs hne, hv, h1, h2, hv0, ?_⟩
  have hv' := C14_immediate kind N hN xs
  rw [hv] at hv'
  rw [Res.val.injEq] at hv'
  have hk : (0 : K) < ((min xs.length N : ℕ) : K) := by
    have : 0 < xs.length := List.length_pos_iff.2 hne
    exact_mod_cast (by omega : 0 < min xs.length N)
  split_ifs at hv' with h3
  · rw [hv']
    have := mul_nonneg hk.le (sq_nonneg (maxRun ltb lo xs - minRun ltb hi xs))
    simpa using this
  · have hb := wvariance_bhatia (ps := W.map fun x => (x, (1 : K))) (by simpa using hWne)
      (by intro p hp; obtain ⟨x, hx, rfl⟩ := List.mem_map.1 hp; exact one_pos)
      (a := minRun ltb hi xs) (b := maxRun ltb lo xs)
      (by intro p hp; obtain ⟨x, hx, rfl⟩ := List.mem_map.1 hp; exact hsub x hx)
    rw [Spec.wvariance, unit_wcentral, unit_wmean] at hb
    have hb4 : 4 * Spec.centralMoment 2 W ≤ (maxRun ltb lo xs - minRun ltb hi xs) ^ 2 := by
      nlinarith [sq_nonneg (2 * Spec.mean W - maxRun ltb lo xs - minRun ltb hi xs)]
    have hk1 : (0 : K) < ((min xs.length N : ℕ) : K) - 1 := by
      have : (1 : K) < ((min xs.length N : ℕ) : K) := by exact_mod_cast (by omega : 1 < min xs.length N)
      linarith
    have e : (((min xs.length N : ℕ) : K) - 1) * v = ((min xs.length N : ℕ) : K) * Spec.centralMoment 2 W := by
      rw [hv', ← hW, Spec.sampleVariance, Spec.centralMoment, hlen]
      field_simp
    calc 4 * (((min xs.length N : ℕ) : K) - 1) * v
        = ((min xs.length N : ℕ) : K) * (4 * Spec.centralMoment 2 W) := by rw [mul_assoc, e]; ring
      _ ≤ _ := mul_le_mul_of_nonneg_left hb4 hk.le

end rolling

section tail
variable {K : Type} [Field K] [LinearOrder K] [IsStrictOrderedRing K]

theorem sum_le_length_mul {l : List K} {c : K} (h : ∀ x ∈ l, x ≤ c) : l.sum ≤ l.length * c := by
  induction l with
  | nil => simp
  | cons a l ih =>
    have h1 := h a (by simp)
    have h2 := ih fun x hx => h x (by simp [hx])
    simp only [List.sum_cons, List.length_cons, Nat.cast_add, Nat.cast_one]
    linarith

theorem length_mul_le_sum {l : List K} {c : K} (h : ∀ x ∈ l, c ≤ x) : l.length * c ≤ l.sum := by
  induction l with
  | nil => simp
  | cons a l ih =>
    have h1 := h a (by simp)
    have h2 := ih fun x hx => h x (by simp [hx])
    simp only [List.sum_cons, List.length_cons, Nat.cast_add, Nat.cast_one]
    linarith

/-- The mean of the first part of a list whose elements are separated by `c` from the rest. -/
theorem mean_split {T D : List K} {c : K} (hT : T ≠ []) :
    ((∀ x ∈ T, c ≤ x) → (∀ x ∈ D, x ≤ c) → Spec.mean (T ++ D) ≤ Spec.mean T) ∧
    ((∀ x ∈ T, x ≤ c) → (∀ x ∈ D, c ≤ x) → Spec.mean T ≤ Spec.mean (T ++ D)) := by
  have t0 : (0 : K) < T.length := by exact_mod_cast List.length_pos_iff.2 hT
  have d0 : (0 : K) ≤ D.length := Nat.cast_nonneg _
  unfold Spec.mean
  simp only [List.sum_append, List.length_append, Nat.cast_add]
  constructor <;> intro h1 h2
  · have a1 := length_mul_le_sum h1
    have a2 := sum_le_length_mul h2
    rw [div_le_div_iff₀ (by positivity) t0]
    have b1 := mul_le_mul_of_nonneg_left a2 t0.le
    have b2 := mul_le_mul_of_nonneg_left a1 d0
    nlinarith
  · have a1 := sum_le_length_mul h1
    have a2 := length_mul_le_sum h2
    rw [div_le_div_iff₀ t0 (by positivity)]
    have b1 := mul_le_mul_of_nonneg_left a2 t0.le
    have b2 := mul_le_mul_of_nonneg_left a1 d0
    nlinarith

/-- The mean of the `n` most extreme values is at least as extreme as the mean of all. -/
theorem mean_extremes (side : Side) {n : ℕ} (hn : 0 < n) {xs : List K} (hx : xs ≠ []) :
    Spec.geExt side (Spec.mean (Spec.extremes side n xs)) (Spec.mean xs) := by
  have hs := byExtremity_sorted side xs
  have hp : (Spec.byExtremity side xs).Perm xs := List.perm_insertionSort _ _
  have hm : Spec.mean xs = Spec.mean (Spec.byExtremity side xs) := by
    unfold Spec.mean
    rw [hp.sum_eq, hp.length_eq]
  have hlen := hp.length_eq
  unfold Spec.extremes
  rw [hm]
  set L := Spec.byExtremity side xs with hL
  have hLne : L ≠ [] := fun h => hx (by rw [h] at hlen; exact List.length_eq_zero_iff.1 hlen.symm)
  rcases Nat.lt_or_ge n L.length with h1 | h1
  · have hT : L.take n ≠ [] := by
      intro h0
      have := congrArg List.length h0
      rw [List.length_take, List.length_nil] at this
      omega
    have ht : ∀ x ∈ L.take n, Spec.geExt side x L[n] := by
      intro x hx
      obtain ⟨i, hi, rfl⟩ := List.getElem_of_mem hx
      rw [List.length_take] at hi
      rw [List.getElem_take]
      exact List.pairwise_iff_getElem.mp hs i n _ _ (by omega)
    have hd : ∀ x ∈ L.drop n, Spec.geExt side L[n] x := by
      intro x hx
      obtain ⟨i, hi, rfl⟩ := List.getElem_of_mem hx
      rw [List.length_drop] at hi
      rw [List.getElem_drop]
      rcases Nat.eq_zero_or_pos i with rfl | h0
      · cases side <;> simp [Spec.geExt]
      · exact List.pairwise_iff_getElem.mp hs n (n + i) _ _ (by omega)
    have e := List.take_append_drop n L
    cases side with
    | right =>
      have := (mean_split (T := L.take n) (D := L.drop n) (c := L[n]) hT).1 ht hd
      rw [e] at this
      exact this
    | left =>
      have := (mean_split (T := L.take n) (D := L.drop n) (c := L[n]) hT).2 ht hd
      rw [e] at this
      exact this
  · rw [List.take_of_length_le h1]
    cases side <;> simp [Spec.geExt]

variable [FloorRing K]

/-- **C73** The (non-coherent) tail mean is at least as extreme as the mean of all samples and at most as extreme as
the most extreme sample: on the right `mean(acc) ≤ tail_mean(acc) ≤ max(acc)`, on the left
`min(acc) ≤ tail_mean(acc) ≤ mean(acc)`. -/
theorem C73_tail_mean {V : Type} (H : HeapImpl ℕ) (side : Side) (hasNaN : Bool) {k : ℕ} (x0 : K) (v0 : V)
    (h : List (Op (K × V) Unit)) {p : K} {n : ℕ} {lo hi : K} (hlim : ∀ q ∈ pushes h, lo ≤ q.1 ∧ q.1 ≤ hi)
    (hk : 1 ≤ k) (hn : Spec.tailCount side (pushes h).length p = n) (h1 : 1 ≤ n)
    (h2 : n ≤ min k (pushes h).length) :
    ∃ t m, nonCoherentTailMean H side hasNaN k x0 v0 h p = .val t ∧
      (lazyMean 0).read ((lazyMean 0).run ((pushes h).map Prod.fst)) = .val m ∧
      match side with
      | .right => m ≤ t ∧ t ≤ maxRun ltb lo ((pushes h).map Prod.fst)
      | .left => minRun ltb hi ((pushes h).map Prod.fst) ≤ t ∧ t ≤ m := by
  have hne : (pushes h).map Prod.fst ≠ [] := by
    intro h0
    have : (pushes h).length = 0 := by simpa using congrArg List.length h0
    omega
  refine ⟨_, _, C19_mean H side hasNaN x0 v0 h hk hn h1 h2, lazyMean_correct _ hne, ?_⟩
  have hm := mean_extremes side (n := n) (by omega) hne
  have hE : Spec.extremes side n ((pushes h).map Prod.fst) ≠ [] := by
    intro h0
    have := extremes_length side n ((pushes h).map Prod.fst)
    rw [h0] at this
    simp at this
    omega
  have hsub : ∀ x ∈ Spec.extremes side n ((pushes h).map Prod.fst), x ∈ (pushes h).map Prod.fst := fun x hx =>
    (List.perm_insertionSort _ _).mem_iff.1 (List.mem_of_mem_take hx)
  have hmax := C09_max lo ((pushes h).map Prod.fst) hne (by
    intro x hx; obtain ⟨q, hq, rfl⟩ := List.mem_map.1 hx; exact (hlim q hq).1)
  have hmin := C09_min hi ((pushes h).map Prod.fst) hne (by
    intro x hx; obtain ⟨q, hq, rfl⟩ := List.mem_map.1 hx; exact (hlim q hq).2)
  have hb := mean_bounds hE (a := minRun ltb hi ((pushes h).map Prod.fst)) (b := maxRun ltb lo ((pushes h).map Prod.fst))
    (fun x hx => ⟨hmin.2 (hsub x hx), hmax.2 (hsub x hx)⟩)
  cases side with
  | right => exact ⟨hm, hb.2⟩
  | left => exact ⟨hb.1, hm⟩

end tail

/-! ## The hypotheses can be met -/

/-- A weighted set with several variants. -/
example : ∃ a b m v, statRun (fun _ _ _ => .ub) (-1000 : ℚ) 1000 true List.reverse
    [tg StdF.max, tg lazyVariance, dr immediateMean, tg StdF.min, tg (moment 3)]
    [⟨1, 1, fun _ => 2⟩, ⟨4, 2, fun _ => 4⟩, ⟨7, 1, fun _ => 0⟩] StdF.min = .val a ∧
    statRun (fun _ _ _ => .ub) (-1000 : ℚ) 1000 true List.reverse
    [tg StdF.max, tg lazyVariance, dr immediateMean, tg StdF.min, tg (moment 3)]
    [⟨1, 1, fun _ => 2⟩, ⟨4, 2, fun _ => 4⟩, ⟨7, 1, fun _ => 0⟩] StdF.max = .val b ∧
    statRun (fun _ _ _ => .ub) (-1000 : ℚ) 1000 true List.reverse
    [tg StdF.max, tg lazyVariance, dr immediateMean, tg StdF.min, tg (moment 3)]
    [⟨1, 1, fun _ => 2⟩, ⟨4, 2, fun _ => 4⟩, ⟨7, 1, fun _ => 0⟩] StdF.mean = .val m ∧
    statRun (fun _ _ _ => .ub) (-1000 : ℚ) 1000 true List.reverse
    [tg StdF.max, tg lazyVariance, dr immediateMean, tg StdF.min, tg (moment 3)]
    [⟨1, 1, fun _ => 2⟩, ⟨4, 2, fun _ => 4⟩, ⟨7, 1, fun _ => 0⟩] StdF.variance = .val v ∧
    0 ≤ v ∧ v ≤ (b - m) * (m - a) ∧ 4 * v ≤ (b - a) ^ 2 ∧ (v = 0 ↔ a = b) :=
  C73_variance_bounds (v0 := 1) ⟨fun _ _ _ _ _ _ _ => rfl, fun _ _ _ _ => rfl⟩ true List.reverse_perm _
    (by decide +kernel) (by simp) (by simp) (by norm_num) ⟨tg StdF.min, by simp, by decide⟩
    ⟨tg StdF.max, by simp, by decide⟩ ⟨dr immediateMean, by simp, by decide⟩ ⟨tg lazyVariance, by simp, by decide⟩

/-- A covariance and a variance in one set, the variance of the covariates in another. -/
example : ∃ v v' c, statRun (fun _ _ _ => .ub) (-1000 : ℚ) 1000 false id [tg (covariance 1), tg variance]
    [⟨1, 1, fun _ => 2⟩, ⟨4, 1, fun _ => 4⟩, ⟨7, 1, fun _ => 0⟩] StdF.variance = .val v ∧
    statRun (fun _ _ _ => .ub) (-1000 : ℚ) 1000 false id [tg (covariance 1), tg variance]
    [⟨1, 1, fun _ => 2⟩, ⟨4, 1, fun _ => 4⟩, ⟨7, 1, fun _ => 0⟩] StdF.abstractCovariance = .val c ∧
    statRun (fun _ _ _ => .ub) (-10 : ℚ) 10 false id [tg lazyVariance]
    [⟨2, 1, fun _ => 2⟩, ⟨4, 1, fun _ => 4⟩, ⟨0, 1, fun _ => 0⟩] StdF.variance = .val v' ∧ c ^ 2 ≤ v * v' :=
  C73_cauchy_schwarz (v0 := 1) (v1 := 0) ⟨fun _ _ _ _ _ _ _ => rfl, fun _ _ _ _ => rfl⟩ false (fun l => List.Perm.refl l)
    _ (by decide +kernel) (as := [⟨1, 1, fun _ => 2⟩, ⟨4, 1, fun _ => 4⟩, ⟨7, 1, fun _ => 0⟩]) (by simp) (by simp)
    (by norm_num) ⟨fun _ _ _ _ _ _ _ => rfl, fun _ _ _ _ => rfl⟩ (fun l => List.Perm.refl l) _ (by decide +kernel)
    (by norm_num) ⟨tg variance, by simp, by decide⟩ ⟨tg (covariance 1), by simp, by decide⟩
    ⟨tg lazyVariance, by simp, by decide⟩

/-- A right tail of two samples out of four. -/
example : ∃ t m, nonCoherentTailMean HeapImpl.simple Side.right true 4 (0 : ℚ) ()
    [.push (3, ()), .push (1, ()), .query (), .push (7, ()), .push (2, ())] (1/2) = .val t ∧
    (lazyMean 0).read ((lazyMean 0).run [(3 : ℚ), 1, 7, 2]) = .val m ∧
    m ≤ t ∧ t ≤ maxRun ltb (-10) [(3 : ℚ), 1, 7, 2] :=
  C73_tail_mean HeapImpl.simple Side.right true (0 : ℚ) ()
    [.push (3, ()), .push (1, ()), .query (), .push (7, ()), .push (2, ())] (p := 1 / 2) (n := 2) (lo := -10) (hi := 10)
    (by simp [pushes]; norm_num) (by norm_num) (by simp only [Spec.tailCount, pushes]; norm_num) (by norm_num)
    (by simp [pushes])

/-- All the tags of the identities in one unweighted set, and in one weighted set. -/
example : ∃ m m2, statRun (fun _ _ _ => .ub) (-1000 : ℚ) 1000 false List.reverse
    [tg (moment 2), tg variance, tg immediateMean] [⟨1, 1, fun _ => 2⟩, ⟨4, 2, fun _ => 4⟩] StdF.mean = .val m ∧
    statRun (fun _ _ _ => .ub) (-1000 : ℚ) 1000 false List.reverse
    [tg (moment 2), tg variance, tg immediateMean] [⟨1, 1, fun _ => 2⟩, ⟨4, 2, fun _ => 4⟩] (StdF.moment 2) = .val m2 ∧
    statRun (fun _ _ _ => .ub) (-1000 : ℚ) 1000 false List.reverse
    [tg (moment 2), tg variance, tg immediateMean] [⟨1, 1, fun _ => 2⟩, ⟨4, 2, fun _ => 4⟩] StdF.variance
      = .val (m2 - m ^ 2) ∧ m ^ 2 ≤ m2 :=
  (C73_identities (v0 := 1) ⟨fun _ _ _ _ _ _ _ => rfl, fun _ _ _ _ => rfl⟩ false List.reverse_perm _
    (by decide +kernel) (by simp) (by simp) (by norm_num)).1 ⟨tg variance, by simp, by decide⟩
    ⟨tg immediateMean, by simp, by decide⟩ ⟨tg (moment 2), by simp, by decide⟩

example : ∃ m W, statRun (fun _ _ _ => .ub) (-1000 : ℚ) 1000 true List.reverse
    [tg sumOfWeights, tg StdF.sumKahan, tg mean] [⟨1, 1, fun _ => 2⟩, ⟨4, 2, fun _ => 4⟩] StdF.mean = .val m ∧
    statRun (fun _ _ _ => .ub) (-1000 : ℚ) 1000 true List.reverse
    [tg sumOfWeights, tg StdF.sumKahan, tg mean] [⟨1, 1, fun _ => 2⟩, ⟨4, 2, fun _ => 4⟩] sumOfWeights = .val W ∧
    statRun (fun _ _ _ => .ub) (-1000 : ℚ) 1000 true List.reverse
    [tg sumOfWeights, tg StdF.sumKahan, tg mean] [⟨1, 1, fun _ => 2⟩, ⟨4, 2, fun _ => 4⟩] StdF.sum
      = .val (m * W) ∧ 0 < W :=
  (C73_identities (v0 := 1) ⟨fun _ _ _ _ _ _ _ => rfl, fun _ _ _ _ => rfl⟩ true List.reverse_perm _
    (by decide +kernel) (by simp) (by simp) (by norm_num)).2.2.1 rfl ⟨tg StdF.sumKahan, by simp, by decide⟩
    ⟨tg mean, by simp, by decide⟩ ⟨tg sumOfWeights, by simp, by decide⟩

example : ∃ a b m, statRun (fun _ _ _ => .ub) (-1000 : ℚ) 1000 false List.reverse
    [tg StdF.max, tg immediateMean, dr StdF.min] [⟨1, 1, fun _ => 2⟩, ⟨4, 2, fun _ => 4⟩] StdF.min = .val a ∧
    statRun (fun _ _ _ => .ub) (-1000 : ℚ) 1000 false List.reverse
    [tg StdF.max, tg immediateMean, dr StdF.min] [⟨1, 1, fun _ => 2⟩, ⟨4, 2, fun _ => 4⟩] StdF.max = .val b ∧
    statRun (fun _ _ _ => .ub) (-1000 : ℚ) 1000 false List.reverse
    [tg StdF.max, tg immediateMean, dr StdF.min] [⟨1, 1, fun _ => 2⟩, ⟨4, 2, fun _ => 4⟩] StdF.mean = .val m ∧
    a ≤ m ∧ m ≤ b ∧ (m = a ↔ a = b) ∧ (m = b ↔ a = b) :=
  C73_mean_within (v0 := 1) ⟨fun _ _ _ _ _ _ _ => rfl, fun _ _ _ _ => rfl⟩ false List.reverse_perm _
    (by decide +kernel) (by simp) (by simp) (by norm_num) ⟨dr StdF.min, by simp, by decide⟩
    ⟨tg StdF.max, by simp, by decide⟩ ⟨tg immediateMean, by simp, by decide⟩

example : ∃ k, statRun (fun _ _ _ => .ub) (-1000 : ℚ) 1000 true id [tg kurtosis]
    [⟨1, 1, fun _ => 2⟩, ⟨4, 2, fun _ => 4⟩] StdF.kurtosis = .val k ∧ -2 ≤ k :=
  C73_kurtosis_bound (v0 := 1) ⟨fun _ _ _ _ _ _ _ => rfl, fun _ _ _ _ => rfl⟩ true (fun l => List.Perm.refl l) _
    (by decide +kernel) (by simp) (by simp) (by norm_num) ⟨tg kurtosis, by simp, by decide⟩
    ⟨_, List.mem_cons_self, ⟨4, 2, fun _ => 4⟩, by simp, by norm_num⟩

example : ∃ s k, statRun (irrational 64) (-1000 : ℝ) 1000 false List.reverse [tg kurtosis, tg skewness]
    [⟨1, 1, fun _ => 2⟩, ⟨4, 2, fun _ => 4⟩, ⟨5, 1, fun _ => 0⟩] StdF.skewness = .val s ∧
    statRun (irrational 64) (-1000 : ℝ) 1000 false List.reverse [tg kurtosis, tg skewness]
    [⟨1, 1, fun _ => 2⟩, ⟨4, 2, fun _ => 4⟩, ⟨5, 1, fun _ => 0⟩] StdF.kurtosis = .val k ∧ s ^ 2 - 2 ≤ k :=
  C73_pearson 64 false (v0 := 1) List.reverse_perm _ (by decide +kernel) (by simp) (by norm_num) (by simp)
    (by norm_num) ⟨tg kurtosis, by simp, by decide⟩ ⟨tg skewness, by simp, by decide⟩
    ⟨_, List.mem_cons_self, ⟨4, 2, fun _ => 4⟩, by simp, by norm_num⟩

example := C73_rolling .lazy (N := 3) (by norm_num) (xs := [(2 : ℚ), 5, 1, 7]) (by simp) (lo := 0) (hi := 10)
  (by norm_num)

end Acc
