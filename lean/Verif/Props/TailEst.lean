import Verif.Props.Tail
import Verif.Proofs.Basic
import Mathlib.Algebra.Order.BigOperators.Group.List
import Mathlib.Tactic.Positivity
import Mathlib.Data.Rat.Floor

/-!
# Properties of the order-statistics tail estimators (C18–C21; tail part of C10, C54, C55, C56)
-/

set_option linter.unusedSectionVars false

namespace Acc

variable {K : Type} [Field K] [LinearOrder K] [IsStrictOrderedRing K] [FloorRing K] {V : Type}

/-- Number of samples the estimators look at: `⌈count · p⌉` on the left, `⌈count · (1 - p)⌉` on the
right. -/
def Spec.tailCount (side : Side) (cnt : ℕ) (p : K) : ℤ :=
  match side with
  | .left => ⌈(cnt : K) * p⌉
  | .right => ⌈(cnt : K) * (1 - p)⌉

theorem tailN_eq {side : Side} {cnt n : ℕ} {p : K} (hn : Spec.tailCount side cnt p = n) :
    tailN side cnt p = .val n := by
  cases side <;> simp only [Spec.tailCount] at hn <;> simp [tailN, tailLevel, hn]

theorem tailCount_nonneg {side : Side} {cnt : ℕ} {p : K} (h0 : 0 ≤ p) (h1 : p ≤ 1) :
    ∃ n : ℕ, Spec.tailCount side cnt p = n := by
  have : 0 ≤ Spec.tailCount side cnt p := by
    cases side
    · exact Int.ceil_nonneg (mul_nonneg (Nat.cast_nonneg _) h0)
    · exact Int.ceil_nonneg (mul_nonneg (Nat.cast_nonneg _) (by linarith))
  exact ⟨_, (Int.toNat_of_nonneg this).symm⟩

theorem tailCount_le {side : Side} {cnt n : ℕ} {p : K} (h0 : 0 ≤ p) (h1 : p ≤ 1)
    (hn : Spec.tailCount side cnt p = n) : n ≤ cnt := by
  have : Spec.tailCount side cnt p ≤ (cnt : ℤ) := by
    have hc : (0 : K) ≤ cnt := Nat.cast_nonneg _
    cases side
    · refine Int.ceil_le.mpr ?_
      push_cast; nlinarith
    · refine Int.ceil_le.mpr ?_
      push_cast; nlinarith
  rw [hn] at this
  exact_mod_cast this

theorem extremes_take {α : Type} [LinearOrder α] (side : Side) {n k : ℕ} (hnk : n ≤ k)
    (xs : List α) : (Spec.extremes side k xs).take n = Spec.extremes side n xs := by
  simp [Spec.extremes, List.take_take, hnk]

theorem extremes_length {α : Type} [LinearOrder α] (side : Side) (k : ℕ) (xs : List α) :
    (Spec.extremes side k xs).length = min k xs.length := (C15_extremes side k xs).1

/-! ## C18 -/

section C18
variable (H : HeapImpl ℕ) (side : Side) (hasNaN : Bool) {k : ℕ} (x0 : K) (v0 : V)
  (h : List (Op (K × V) Unit)) {p : K} {n : ℕ}

/-- **C18** With `1 ≤ n` and `n` smaller than the number of cached samples, the tail quantile is the
`n`-th most extreme sample of the entire stream. -/
theorem C18_quantile (hk : 1 ≤ k) (hn : Spec.tailCount side (pushes h).length p = n) (h1 : 1 ≤ n)
    (h2 : n < min k (pushes h).length) :
    ∃ x, tailQuantile H side hasNaN k x0 v0 h p = .val x ∧
      (Spec.byExtremity side ((pushes h).map Prod.fst))[n - 1]? = some x := by
  obtain ⟨s, out, hr, ht, _, h3, _⟩ := extract_both H side hk x0 v0 h
  have hl := extremes_length side k ((pushes h).map Prod.fst)
  rw [← h3] at hl
  have hl' : (out.map Prod.fst).length = min k (pushes h).length := by rw [hl]; simp
  have hidx : n - 1 < (out.map Prod.fst).length := by omega
  refine ⟨(out.map Prod.fst)[n - 1], ?_, ?_⟩
  · simp only [tailQuantile, hr, Res.val_bind, tailN_eq hn, ht, tailQuantileResult]
    rw [if_pos (by omega), if_neg (by omega), List.getElem?_eq_getElem hidx]
  · have : ((Spec.byExtremity side ((pushes h).map Prod.fst)).take k)[n - 1]? =
        some (out.map Prod.fst)[n - 1] := by
      rw [show (Spec.byExtremity side ((pushes h).map Prod.fst)).take k =
        Spec.extremes side k ((pushes h).map Prod.fst) from rfl, ← h3,
        List.getElem?_eq_getElem hidx]
    rw [List.getElem?_take_of_lt (by omega)] at this
    exact this

/-- **C18** The value is an order statistic: at least `n` samples of the stream are at least as
extreme as it, at most `n - 1` are strictly more extreme. -/
theorem C18_order_statistic {α : Type} [LinearOrder α] (side : Side) {xs : List α} {n : ℕ} {x : α}
    (hx : (Spec.byExtremity side xs)[n]? = some x) :
    x ∈ xs ∧ n + 1 ≤ xs.countP (fun y => decide (Spec.geExt side y x)) ∧
      xs.countP (fun y => decide (Spec.gtExt side y x)) ≤ n := by
  have hp := byExtremity_perm side xs
  have hs := byExtremity_sorted side xs
  obtain ⟨hlt, hx'⟩ := List.getElem?_eq_some_iff.mp hx
  refine ⟨hp.mem_iff.mp (hx' ▸ List.getElem_mem _), ?_, ?_⟩
  · rw [← hp.countP_eq, ← List.take_append_drop (n + 1) (Spec.byExtremity side xs),
      List.countP_append]
    have : ((Spec.byExtremity side xs).take (n + 1)).countP
        (fun y => decide (Spec.geExt side y x)) = n + 1 := by
      rw [List.countP_eq_length.mpr, List.length_take]
      · omega
      · intro y hy
        obtain ⟨i, hi, rfl⟩ := List.getElem_of_mem hy
        rw [List.length_take] at hi
        rw [List.getElem_take, decide_eq_true_eq, ← hx']
        rcases Nat.lt_or_ge i n with hin | hin
        · exact List.pairwise_iff_getElem.mp hs i n _ _ hin
        · have : i = n := by omega
          subst this
          cases side <;> simp [Spec.geExt]
    omega
  · rw [← hp.countP_eq, ← List.take_append_drop n (Spec.byExtremity side xs), List.countP_append]
    have : ((Spec.byExtremity side xs).drop n).countP
        (fun y => decide (Spec.gtExt side y x)) = 0 := by
      rw [List.countP_eq_zero]
      intro y hy
      obtain ⟨i, hi, rfl⟩ := List.getElem_of_mem hy
      rw [List.length_drop] at hi
      rw [List.getElem_drop, decide_eq_true_eq, ← hx']
      have hge : Spec.geExt side (Spec.byExtremity side xs)[n]
          ((Spec.byExtremity side xs)[n + i]'(by omega)) := by
        rcases Nat.eq_zero_or_pos i with rfl | hi0
        · cases side <;> simp [Spec.geExt]
        · exact List.pairwise_iff_getElem.mp hs n (n + i) _ _ (by omega)
      cases side <;> simp only [Spec.geExt, Spec.gtExt] at * <;> exact not_lt.mpr hge
    have hl := List.countP_le_length (p := fun y => decide (Spec.gtExt side y x))
      (l := (Spec.byExtremity side xs).take n)
    rw [List.length_take] at hl
    omega

/-- **C18** Otherwise (`n` not smaller than the number of cached samples): NaN or an exception. -/
theorem C18_too_few (hk : 1 ≤ k) (hn : Spec.tailCount side (pushes h).length p = n)
    (h2 : min k (pushes h).length ≤ n) :
    tailQuantile H side hasNaN k x0 v0 h p = if hasNaN then .nonfinite else .thrown := by
  obtain ⟨s, out, hr, ht, _, h3, _⟩ := extract_both H side hk x0 v0 h
  have hl := extremes_length side k ((pushes h).map Prod.fst)
  rw [← h3] at hl
  have hl' : (out.map Prod.fst).length = min k (pushes h).length := by rw [hl]; simp
  simp only [tailQuantile, hr, Res.val_bind, tailN_eq hn, ht, tailQuantileResult]
  rw [if_neg (by omega)]
  rfl

/-- **C18/C56 fail at the edge**: a level rounding to `n = 0` (`p = 0` on the left, `p = 1` on the
right) reads before the beginning of the cache as soon as one sample has been pushed. -/
theorem C18_zero_ub (hk : 1 ≤ k) (hn : Spec.tailCount side (pushes h).length p = 0)
    (h2 : pushes h ≠ []) : tailQuantile H side hasNaN k x0 v0 h p = .ub := by
  obtain ⟨s, out, hr, ht, _, h3, _⟩ := extract_both H side hk x0 v0 h
  have hl := extremes_length side k ((pushes h).map Prod.fst)
  rw [← h3] at hl
  have hl' : (out.map Prod.fst).length = min k (pushes h).length := by rw [hl]; simp
  have := List.length_pos_of_ne_nil h2
  simp only [tailQuantile, hr, Res.val_bind, tailN_eq (n := 0) (by simpa using hn), ht,
    tailQuantileResult]
  rw [if_pos (by omega)]
  rfl

end C18

/-- `C18_zero_ub` is reachable with the legal probability 1 on the right tail. -/
example : tailQuantile HeapImpl.simple Side.right true 10 (0 : ℚ) ()
    [.push (3, ()), .push (1, ())] 1 = .ub :=
  C18_zero_ub _ _ _ _ _ _ (by norm_num) (by simp [Spec.tailCount, pushes]) (by simp [pushes])

/-- Hypotheses of `C18_quantile` are satisfiable: 4 samples, cache 4, left, p = 1/2, n = 2. -/
example : ∃ x, tailQuantile HeapImpl.simple Side.left true 4 (0 : ℚ) ()
    [.push (3, ()), .push (1, ()), .query (), .push (7, ()), .push (2, ())] (1/2) = .val x ∧
      (Spec.byExtremity Side.left [(3 : ℚ), 1, 7, 2])[2 - 1]? = some x :=
  C18_quantile _ _ _ _ _ _ (by norm_num)
    (by simp only [Spec.tailCount, pushes]; norm_num) (by norm_num) (by simp [pushes])

/-- **C18** The strict comparison makes the estimator refuse a quantile it has cached: the documented
requirement "caching of at least ⌈nα⌉ samples" (`tail_quantile.hpp:48-51`) is not sufficient. Left
tail, two samples, cache of two, p = 1: the 2nd smallest sample is in the cache, the answer is NaN. -/
theorem C18_boundary_rejected :
    tailQuantile HeapImpl.simple Side.left true 2 (0 : ℚ) () [.push (3, ()), .push (1, ())] 1
      = .nonfinite :=
  C18_too_few (n := 2) _ _ _ _ _ _ (by norm_num)
    (by simp only [Spec.tailCount, pushes]; norm_num) (by simp [pushes])

/-! ## C19 -/

section C19
variable (H : HeapImpl ℕ) (side : Side) (hasNaN : Bool) {k : ℕ} (x0 : K) (v0 : V)
  (h : List (Op (K × V) Unit)) {p : K} {n : ℕ}

/-- **C19** The non-coherent tail mean is the arithmetic mean of the `n` most extreme samples of the
entire stream. -/
theorem C19_mean (hk : 1 ≤ k) (hn : Spec.tailCount side (pushes h).length p = n) (h1 : 1 ≤ n)
    (h2 : n ≤ min k (pushes h).length) :
    nonCoherentTailMean H side hasNaN k x0 v0 h p =
      .val (Spec.mean (Spec.extremes side n ((pushes h).map Prod.fst))) := by
  obtain ⟨s, out, hr, ht, _, h3, _⟩ := extract_both H side hk x0 v0 h
  have hl := extremes_length side k ((pushes h).map Prod.fst)
  rw [← h3] at hl
  have hl' : (out.map Prod.fst).length = min k (pushes h).length := by rw [hl]; simp
  have hle := extremes_length side n ((pushes h).map Prod.fst)
  have hne : (n : K) ≠ 0 := by
    have : (0 : K) < n := by exact_mod_cast h1
    exact this.ne'
  simp only [nonCoherentTailMean, hr, Res.val_bind, tailN_eq hn, ht, nonCoherentTailMeanResult]
  rw [if_pos (by omega), h3, extremes_take side (by omega), fdiv_ne hne, ← List.sum_eq_foldl]
  congr 1
  unfold Spec.mean
  rw [hle, List.length_map, Nat.min_eq_left (by omega)]

/-- **C19** Not enough cached samples: NaN or an exception. -/
theorem C19_too_few (hk : 1 ≤ k) (hn : Spec.tailCount side (pushes h).length p = n)
    (h2 : min k (pushes h).length < n) :
    nonCoherentTailMean H side hasNaN k x0 v0 h p = if hasNaN then .nonfinite else .thrown := by
  obtain ⟨s, out, hr, ht, _, h3, _⟩ := extract_both H side hk x0 v0 h
  have hl := extremes_length side k ((pushes h).map Prod.fst)
  rw [← h3] at hl
  have hl' : (out.map Prod.fst).length = min k (pushes h).length := by rw [hl]; simp
  simp only [nonCoherentTailMean, hr, Res.val_bind, tailN_eq hn, ht, nonCoherentTailMeanResult]
  rw [if_neg (by omega)]
  rfl

/-- **C19** A level rounding to zero samples: 0/0, never a finite value, never undefined behaviour. -/
theorem C19_zero (hk : 1 ≤ k) (hn : Spec.tailCount side (pushes h).length p = 0) :
    nonCoherentTailMean H side hasNaN k x0 v0 h p = .nonfinite := by
  obtain ⟨s, out, hr, ht, _, h3, _⟩ := extract_both H side hk x0 v0 h
  simp [nonCoherentTailMean, hr, tailN_eq (n := 0) (by simpa using hn), ht,
    nonCoherentTailMeanResult]

/-- Mean of a list all of whose elements are at least as extreme as `q`. -/
theorem mean_geExt {side : Side} {l : List K} {q : K} (hne : l ≠ [])
    (hl : ∀ x ∈ l, Spec.geExt side x q) : Spec.geExt side (Spec.mean l) q := by
  have hpos : (0 : K) < l.length := by
    exact_mod_cast List.length_pos_of_ne_nil hne
  unfold Spec.mean
  cases side
  · have := List.sum_le_card_nsmul l q (fun x hx => hl x hx)
    rw [nsmul_eq_mul] at this
    show l.sum / (l.length : K) ≤ q
    rw [div_le_iff₀ hpos]
    linarith
  · have := List.card_nsmul_le_sum l q (fun x hx => hl x hx)
    rw [nsmul_eq_mul] at this
    show q ≤ l.sum / (l.length : K)
    rw [le_div_iff₀ hpos]
    linarith

/-- **C19** The tail mean is at least as extreme as the tail quantile of the same level. -/
theorem C19_beyond_quantile (hk : 1 ≤ k) (hn : Spec.tailCount side (pushes h).length p = n)
    (h1 : 1 ≤ n) (h2 : n < min k (pushes h).length) :
    ∃ m q, nonCoherentTailMean H side hasNaN k x0 v0 h p = .val m ∧
      tailQuantile H side hasNaN k x0 v0 h p = .val q ∧ Spec.geExt side m q := by
  obtain ⟨q, hq, hqx⟩ := C18_quantile H side hasNaN x0 v0 h hk hn h1 h2
  refine ⟨_, q, C19_mean H side hasNaN x0 v0 h hk hn h1 (by omega), hq, ?_⟩
  have hle := extremes_length side n ((pushes h).map Prod.fst)
  rw [List.length_map, Nat.min_eq_left (by omega)] at hle
  apply mean_geExt
  · intro h0
    have : (Spec.extremes side n ((pushes h).map Prod.fst)).length = 0 := by rw [h0]; rfl
    omega
  · intro x hx
    obtain ⟨i, hi, rfl⟩ := List.getElem_of_mem hx
    obtain ⟨hlt, hq'⟩ := List.getElem?_eq_some_iff.mp hqx
    have hs := byExtremity_sorted side ((pushes h).map Prod.fst)
    simp only [Spec.extremes, List.getElem_take]
    rw [← hq']
    rcases Nat.lt_or_ge i (n - 1) with hin | hin
    · exact List.pairwise_iff_getElem.mp hs i (n - 1) _ _ hin
    · have : i = n - 1 := by omega
      subst this
      cases side <;> simp [Spec.geExt]

end C19

example : nonCoherentTailMean HeapImpl.simple Side.right true 3 (0 : ℚ) ()
    [.push (3, ()), .push (1, ()), .query (), .push (7, ()), .push (2, ())] (1/2)
      = .val (Spec.mean (Spec.extremes Side.right 2 [(3 : ℚ), 1, 7, 2])) :=
  C19_mean _ _ _ _ _ _ (by norm_num)
    (by simp only [Spec.tailCount, pushes]; norm_num) (by norm_num) (by simp [pushes])

/-! ## C20 -/

section C20
variable (H : HeapImpl ℕ) (side : Side) (hasNaN : Bool) {k : ℕ} (x0 : K) (v0 : V)
  (h : List (Op (K × V) Unit)) {p : K} {n : ℕ}

/-- What the code computes, for both tails: on the left the term `- n/count` is missing (helper). -/
theorem coherent_eq (hk : 1 ≤ k) (hn : Spec.tailCount side (pushes h).length p = n)
    (h1 : 1 ≤ n) (h2 : n < min k (pushes h).length) :
    ∃ m q, nonCoherentTailMean H side hasNaN k x0 v0 h p = .val m ∧
      tailQuantile H side hasNaN k x0 v0 h p = .val q ∧
      coherentTailMean H side hasNaN k x0 v0 h p =
        .val (m + q / n * (match side with
          | .left => p
          | .right => 1 - p - (n : K) / ((pushes h).length : K))) := by
  obtain ⟨m, q, hm, hq, _⟩ := C19_beyond_quantile H side hasNaN x0 v0 h hk hn h1 h2
  refine ⟨m, q, hm, hq, ?_⟩
  obtain ⟨s, out, hr, ht, _, h3, _⟩ := extract_both H side hk x0 v0 h
  have hne : (n : K) ≠ 0 := by
    have : (0 : K) < n := by exact_mod_cast h1
    exact this.ne'
  have hc : (((pushes h).length : ℕ) : K) ≠ 0 := by
    have : (0 : K) < ((pushes h).length : ℕ) := by
      exact_mod_cast (show 0 < (pushes h).length by omega)
    exact this.ne'
  simp only [nonCoherentTailMean, tailQuantile, hr, Res.val_bind, tailN_eq hn, ht] at hm hq
  simp only [coherentTailMean, hr, Res.val_bind, tailN_eq hn, ht, coherentTailMeanResult,
    coherentTailMeanOf, hm, hq,
    fdiv_ne hne, fdiv_ne hc, Res.pure_eq]
  cases side <;> rfl

/-- **C20**, right tail: the documented formula `NCTM + (1/n) · q · ((1 - p) - n/count)`
(`tail_mean.hpp:51-54`).  The left tail does not satisfy it, see `C20_left_wrong`. -/
theorem C20_right_partial (hk : 1 ≤ k) (hn : Spec.tailCount .right (pushes h).length p = n)
    (h1 : 1 ≤ n) (h2 : n < min k (pushes h).length) :
    ∃ m q, nonCoherentTailMean H .right hasNaN k x0 v0 h p = .val m ∧
      tailQuantile H .right hasNaN k x0 v0 h p = .val q ∧
      coherentTailMean H .right hasNaN k x0 v0 h p =
        .val (m + 1 / n * q * ((1 - p) - (n : K) / ((pushes h).length : K))) := by
  obtain ⟨m, q, hm, hq, hc⟩ := coherent_eq H .right hasNaN x0 v0 h hk hn h1 h2
  refine ⟨m, q, hm, hq, ?_⟩
  rw [hc]
  congr 1
  ring

/-- **C20**, right tail: no correction when `count · (1 - p)` is an integer. -/
theorem C20_right_integer (hk : 1 ≤ k) (hn : ((pushes h).length : K) * (1 - p) = n)
    (h1 : 1 ≤ n) (h2 : n < min k (pushes h).length) :
    coherentTailMean H .right hasNaN k x0 v0 h p =
      nonCoherentTailMean H .right hasNaN k x0 v0 h p := by
  have hn' : Spec.tailCount .right (pushes h).length p = n := by
    simp only [Spec.tailCount, hn]; exact Int.ceil_natCast n
  obtain ⟨m, q, hm, hq, hc⟩ := C20_right_partial H hasNaN x0 v0 h hk hn' h1 h2
  rw [hc, hm]
  congr 1
  have hc : (((pushes h).length : ℕ) : K) ≠ 0 := by
    have : (0 : K) < ((pushes h).length : ℕ) := by
      exact_mod_cast (show 0 < (pushes h).length by omega)
    exact this.ne'
  have : (1 - p) - (n : K) / ((pushes h).length : K) = 0 := by
    rw [← hn]; field_simp; ring
  rw [this]; ring

/-- **C20**, left tail: what is computed instead, `NCTM + (1/n) · q · p`. -/
theorem C20_left_actual (hk : 1 ≤ k) (hn : Spec.tailCount .left (pushes h).length p = n)
    (h1 : 1 ≤ n) (h2 : n < min k (pushes h).length) :
    ∃ m q, nonCoherentTailMean H .left hasNaN k x0 v0 h p = .val m ∧
      tailQuantile H .left hasNaN k x0 v0 h p = .val q ∧
      coherentTailMean H .left hasNaN k x0 v0 h p = .val (m + 1 / n * q * p) := by
  obtain ⟨m, q, hm, hq, hc⟩ := coherent_eq H .left hasNaN x0 v0 h hk hn h1 h2
  refine ⟨m, q, hm, hq, ?_⟩
  rw [hc]
  congr 1
  ring

end C20

example : ∃ m q, nonCoherentTailMean HeapImpl.simple Side.right true 4 (0 : ℚ) ()
      [.push (3, ()), .push (1, ()), .push (7, ()), .push (2, ())] (1/3) = .val m ∧
    tailQuantile HeapImpl.simple Side.right true 4 (0 : ℚ) ()
      [.push (3, ()), .push (1, ()), .push (7, ()), .push (2, ())] (1/3) = .val q ∧
    coherentTailMean HeapImpl.simple Side.right true 4 (0 : ℚ) ()
      [.push (3, ()), .push (1, ()), .push (7, ()), .push (2, ())] (1/3)
      = .val (m + 1 / (3 : ℕ) * q * ((1 - 1/3) - ((3 : ℕ) : ℚ) / ((4 : ℕ) : ℚ))) :=
  C20_right_partial (n := 3) _ _ _ _ _ (by norm_num)
    (by
      simp only [Spec.tailCount, pushes]
      rw [Int.ceil_eq_iff]; norm_num) (by norm_num) (by simp [pushes])

/-- **C20 is false for the left tail** (`tail_mean.hpp:86-89`: the conditional operator binds weaker
than the subtraction): four samples 1, 2, 4, 8, p = 1/2, everything cached.  `count · p = 2` is an
integer, so the documented result is the non-coherent mean 3/2; the code returns 2. -/
theorem C20_left_wrong :
    ∃ (h : List (Op (ℚ × Unit) Unit)) (p : ℚ) (n : ℕ),
      Spec.tailCount .left (pushes h).length p = n ∧ ((pushes h).length : ℚ) * p = n ∧
      nonCoherentTailMean HeapImpl.simple .left true 4 0 () h p = .val (3 / 2) ∧
      coherentTailMean HeapImpl.simple .left true 4 0 () h p = .val 2 := by
  refine ⟨[.push (1, ()), .push (2, ()), .push (4, ()), .push (8, ())], 1 / 2, 2, ?_, ?_, ?_, ?_⟩
  · simp only [Spec.tailCount, pushes]; norm_num
  · simp [pushes]; norm_num
  all_goals
    have hn : Spec.tailCount Side.left (pushes ([.push (1, ()), .push (2, ()), .push (4, ()),
      .push (8, ())] : List (Op (ℚ × Unit) Unit))).length (1 / 2 : ℚ) = (2 : ℕ) := by
      simp only [Spec.tailCount, pushes]; norm_num
    have hm := C19_mean HeapImpl.simple .left true (k := 4) (0 : ℚ) ()
      ([.push (1, ()), .push (2, ()), .push (4, ()), .push (8, ())]) (by norm_num) hn
      (by norm_num) (by simp [pushes])
    have he : Spec.extremes Side.left 2 ((pushes ([.push (1, ()), .push (2, ()), .push (4, ()),
      .push (8, ())] : List (Op (ℚ × Unit) Unit))).map Prod.fst) = [1, 2] := by decide
    have hb : Spec.byExtremity Side.left ((pushes ([.push (1, ()), .push (2, ()), .push (4, ()),
      .push (8, ())] : List (Op (ℚ × Unit) Unit))).map Prod.fst) = [1, 2, 4, 8] := by decide
    rw [he] at hm
    have hm' : Spec.mean ([1, 2] : List ℚ) = 3 / 2 := by norm_num [Spec.mean]
    rw [hm'] at hm
  · exact hm
  · obtain ⟨m, q, h1, h2, h3⟩ := C20_left_actual HeapImpl.simple true (k := 4) (0 : ℚ) ()
      ([.push (1, ()), .push (2, ()), .push (4, ()), .push (8, ())]) (by norm_num) hn
      (by norm_num) (by simp [pushes])
    obtain ⟨q', h4, h5⟩ := C18_quantile HeapImpl.simple .left true (k := 4) (0 : ℚ) ()
      ([.push (1, ()), .push (2, ()), .push (4, ()), .push (8, ())]) (by norm_num) hn
      (by norm_num) (by simp [pushes])
    rw [hb] at h5
    simp at h5
    rw [hm] at h1
    rw [h4] at h2
    injection h1 with h1
    injection h2 with h2
    rw [h3, ← h1, ← h2, ← h5]
    norm_num

/-! ## C21 -/

omit [FloorRing K] in
theorem vecAdd_range {d : ℕ} {f : ℕ → K} {v : List K} (hv : v.length = d) :
    vecAdd ((List.range d).map f) v = .val ((List.range d).map (fun j => f j + v.getD j 0)) := by
  induction v generalizing d f with
  | nil => subst hv; rfl
  | cons a v ih =>
    subst hv
    rw [List.length_cons, List.range_succ_eq_map]
    simp only [List.map_cons, List.map_map, vecAdd]
    rw [ih (f := f ∘ Nat.succ) rfl]
    simp [Function.comp_def]

theorem vecAccumulate_range {d : ℕ} {vs : List (List K)} {f : ℕ → K}
    (hv : ∀ v ∈ vs, v.length = d) :
    vecAccumulate ((List.range d).map f) vs =
      .val ((List.range d).map (fun j => f j + (vs.map (fun v => v.getD j 0)).sum)) := by
  induction vs generalizing f with
  | nil => simp [vecAccumulate]
  | cons v vs ih =>
    rw [vecAccumulate, vecAdd_range (hv v (by simp)), Res.val_bind,
      ih (fun w hw => hv w (by simp [hw]))]
    congr 1
    apply List.map_congr_left
    intro j _
    simp [add_assoc]

omit [FloorRing K] in
theorem vecDiv_eq {c : K} (hc : c ≠ 0) (l : List K) :
    vecDiv c l = .val (l.map (fun x => x / c)) := by
  induction l with
  | nil => rfl
  | cons a l ih => simp [vecDiv, fdiv_ne hc, ih]

section C21
variable (H : HeapImpl ℕ) (side : Side) (hasNaN : Bool) {k d : ℕ} (x0 : K) (v0 : List K)
  (h : List (Op (K × List K) Unit)) {p : K} {n : ℕ}

/-- The pairs averaged by the tail variate means (helper). -/
theorem variateMeans_eq (hk : 1 ≤ k) (hn : Spec.tailCount side (pushes h).length p = n)
    (h1 : 1 ≤ n) (h2 : n < min k (pushes h).length) (hd : ∀ q ∈ pushes h, q.2.length = d) :
    ∃ sel : List (K × List K), sel.Subperm (pushes h) ∧ sel.length = n ∧
      sel.map Prod.fst = Spec.extremes side n ((pushes h).map Prod.fst) ∧
      tailVariateMeans H side false hasNaN k x0 v0 h p =
        .val ((List.range d).map (fun j => Spec.mean (sel.map (fun q => q.2.getD j 0)))) ∧
      ∀ m ≠ 0, nonCoherentTailMean H side hasNaN k x0 v0 h p = .val m →
        tailVariateMeans H side true hasNaN k x0 v0 h p =
          .val ((List.range d).map (fun j => Spec.mean (sel.map (fun q => q.2.getD j 0)) / m)) := by
  obtain ⟨s, out, hr, ht, hv, h3, D, h5, _⟩ := extract_both H side hk x0 v0 h
  have hl := extremes_length side k ((pushes h).map Prod.fst)
  rw [← h3] at hl
  have hl' : out.length = min k (pushes h).length := by simpa using hl
  have hsub : (out.take n).Subperm (pushes h) :=
    ((List.take_sublist n out).trans (List.sublist_append_left out D)).subperm.trans h5.subperm
  have hlen : (out.take n).length = n := by rw [List.length_take]; omega
  have hne : (n : K) ≠ 0 := by
    have : (0 : K) < n := by exact_mod_cast h1
    exact this.ne'
  have hdim : ∀ v ∈ ((out.map Prod.snd).take n), v.length = d := by
    intro v hv
    obtain ⟨q, hq, rfl⟩ := List.mem_map.mp (List.mem_of_mem_take hv)
    exact hd q (h5.mem_iff.mp (List.mem_append_left _ hq))
  have hacc : ∀ d' : List K, d'.length = d →
      vecAccumulate (List.replicate d'.length (0 : K)) ((out.map Prod.snd).take n) =
      .val ((List.range d).map (fun j => ((out.take n).map (fun q => q.2.getD j 0)).sum)) := by
    intro d' hd'
    have e : List.replicate d'.length (0 : K) = (List.range d).map (fun _ => (0 : K)) := by
      rw [hd', List.map_const', List.length_range]
    rw [e, vecAccumulate_range hdim]
    congr 1
    apply List.map_congr_left
    intro j _
    rw [zero_add, ← List.map_take, List.map_map]
    rfl
  have hcons : ∃ v vs, out.map Prod.snd = v :: vs ∧ v.length = d := by
    cases hout : out with
    | nil => rw [hout] at hl'; simp at hl'; omega
    | cons q qs =>
      exact ⟨q.2, qs.map Prod.snd, rfl,
        hd q (h5.mem_iff.mp (List.mem_append_left _ (by rw [hout]; simp)))⟩
  obtain ⟨v, vs, hcs, hvd⟩ := hcons
  refine ⟨out.take n, hsub, hlen, ?_, ?_, ?_⟩
  · rw [List.map_take, h3, extremes_take side (by omega)]
  · simp only [tailVariateMeans, hr, Res.val_bind, tailN_eq hn, ht, hv, tailVariateMeansResult,
      tailVariateMeansOf]
    rw [hcs]
    simp only []
    rw [← hcs, if_pos (by rw [List.length_map]; omega), hacc v hvd]
    simp only [Res.val_bind, Bool.false_eq_true, if_false, vecDiv_eq hne, List.map_map]
    congr 1
    apply List.map_congr_left
    intro j _
    simp [Spec.mean, List.length_take, show min n out.length = n by omega]
  · intro m hm hmean
    simp only [nonCoherentTailMean, hr, Res.val_bind, tailN_eq hn, ht] at hmean
    simp only [tailVariateMeans, hr, Res.val_bind, tailN_eq hn, ht, hv, tailVariateMeansResult,
      tailVariateMeansOf]
    rw [hcs]
    simp only []
    rw [← hcs, if_pos (by rw [List.length_map]; omega), hacc v hvd]
    simp only [Res.val_bind, if_true, hmean, vecDiv_eq (mul_ne_zero hne hm), List.map_map]
    congr 1
    apply List.map_congr_left
    intro j _
    simp [Spec.mean, List.length_take, show min n out.length = n by omega]
    field_simp

/-- **C21** Absolute tail variate means: componentwise arithmetic mean of the variates pushed with
the `n` most extreme samples. -/
theorem C21_absolute (hk : 1 ≤ k) (hn : Spec.tailCount side (pushes h).length p = n)
    (h1 : 1 ≤ n) (h2 : n < min k (pushes h).length) (hd : ∀ q ∈ pushes h, q.2.length = d) :
    ∃ sel : List (K × List K), sel.Subperm (pushes h) ∧
      sel.map Prod.fst = Spec.extremes side n ((pushes h).map Prod.fst) ∧
      tailVariateMeans H side false hasNaN k x0 v0 h p =
        .val ((List.range d).map (fun j => Spec.mean (sel.map (fun q => q.2.getD j 0)))) := by
  obtain ⟨sel, a, _, b, c, _⟩ := variateMeans_eq H side hasNaN x0 v0 h hk hn h1 h2 hd
  exact ⟨sel, a, b, c⟩

/-- **C21** Relative tail variate means: the absolute ones divided by the mean of the `n` most extreme
samples. -/
theorem C21_relative (hk : 1 ≤ k) (hn : Spec.tailCount side (pushes h).length p = n)
    (h1 : 1 ≤ n) (h2 : n < min k (pushes h).length) (hd : ∀ q ∈ pushes h, q.2.length = d)
    (hm : Spec.mean (Spec.extremes side n ((pushes h).map Prod.fst)) ≠ 0) :
    ∃ sel : List (K × List K), sel.Subperm (pushes h) ∧
      sel.map Prod.fst = Spec.extremes side n ((pushes h).map Prod.fst) ∧
      tailVariateMeans H side true hasNaN k x0 v0 h p =
        .val ((List.range d).map (fun j => Spec.mean (sel.map (fun q => q.2.getD j 0)) /
          Spec.mean (Spec.extremes side n ((pushes h).map Prod.fst)))) := by
  obtain ⟨sel, a, _, b, _, c⟩ := variateMeans_eq H side hasNaN x0 v0 h hk hn h1 h2 hd
  exact ⟨sel, a, b, c _ hm (C19_mean H side hasNaN x0 v0 h hk hn h1 (by omega))⟩

theorem vecAdd_ub {a b : List K} (h : b.length < a.length) : vecAdd a b = .ub := by
  induction a generalizing b with
  | nil => simp at h
  | cons x xs ih =>
    cases b with
    | nil => rfl
    | cons y ys => rw [vecAdd, ih (by simpa using h)]; rfl

theorem vecAdd_val {a b c : List K} (h : vecAdd a b = .val c) : c.length = a.length := by
  induction a generalizing b c with
  | nil => simp [vecAdd] at h; simp [← h]
  | cons x xs ih =>
    cases b with
    | nil => simp [vecAdd] at h
    | cons y ys =>
      rw [vecAdd] at h
      rcases e : vecAdd xs ys with v | _ | _ | _ | _ <;> rw [e] at h
      · have : c = (x + y) :: v := (Res.val.inj h).symm
        rw [this, List.length_cons, List.length_cons, ih e]
      all_goals cases h

theorem vecAdd_total {a b : List K} (h : a.length ≤ b.length) : ∃ c, vecAdd a b = .val c := by
  induction a generalizing b with
  | nil => exact ⟨[], rfl⟩
  | cons x xs ih =>
    cases b with
    | nil => simp at h
    | cons y ys =>
      obtain ⟨c, hc⟩ := ih (b := ys) (by simpa using h)
      exact ⟨(x + y) :: c, by rw [vecAdd, hc]; rfl⟩

theorem vecAccumulate_ub {init : List K} {vs : List (List K)} (h : ∃ v ∈ vs, v.length < init.length) :
    vecAccumulate init vs = .ub := by
  induction vs generalizing init with
  | nil => simp at h
  | cons w ws ih =>
    rw [vecAccumulate]
    by_cases c : w.length < init.length
    · rw [vecAdd_ub c]; rfl
    · obtain ⟨r, hr⟩ := vecAdd_total (not_lt.1 c)
      rw [hr]
      obtain ⟨v, hv, hl⟩ := h
      refine ih ⟨v, ?_, by rw [vecAdd_val hr]; exact hl⟩
      rcases List.mem_cons.1 hv with rfl | hv
      · exact absurd hl c
      · exact hv

/-- **C21** The vectors must have one dimension: if one of the `n` most extreme samples has fewer variates than the most
extreme one, the extraction is undefined. -/
theorem C21_ragged_ub (relative : Bool) (hk : 1 ≤ k) (hn : Spec.tailCount side (pushes h).length p = n)
    (h2 : n < min k (pushes h).length) :
    ∃ sel : List (K × List K), sel.Subperm (pushes h) ∧
      sel.map Prod.fst = Spec.extremes side n ((pushes h).map Prod.fst) ∧
      ∀ first ∈ sel.head?, ∀ q ∈ sel, q.2.length < first.2.length →
        tailVariateMeans H side relative hasNaN k x0 v0 h p = .ub := by
  obtain ⟨s, out, hr, ht, hv, h3, D, h5, _⟩ := extract_both H side hk x0 v0 h
  have hl := extremes_length side k ((pushes h).map Prod.fst)
  rw [← h3] at hl
  have hl' : out.length = min k (pushes h).length := by simpa using hl
  have hsub : (out.take n).Subperm (pushes h) :=
    ((List.take_sublist n out).trans (List.sublist_append_left out D)).subperm.trans h5.subperm
  cases hout : out with
  | nil => rw [hout] at hl'; simp at hl'; omega
  | cons q qs =>
    refine ⟨out.take n, hsub, ?_, fun first hf w hw hlt => ?_⟩
    · rw [List.map_take, h3, extremes_take side (by omega)]
    · obtain rfl : q = first := by
        rw [hout, List.head?_take] at hf
        split_ifs at hf
        · cases hf
        · exact Option.some.inj hf
      have hu : vecAccumulate (List.replicate q.2.length (0 : K)) ((out.map Prod.snd).take n) = .ub := by
        refine vecAccumulate_ub ?_
        refine ⟨w.2, ?_, by rwa [List.length_replicate]⟩
        rw [← List.map_take]
        exact List.mem_map_of_mem hw
      have hc : out.map Prod.snd = q.2 :: qs.map Prod.snd := by rw [hout]; rfl
      have hln : n < (out.map Prod.fst).length := by rw [List.length_map]; omega
      simp only [tailVariateMeans, hr, Res.val_bind, tailN_eq hn, ht, hv, tailVariateMeansResult]
      rw [hc] at hu ⊢
      unfold tailVariateMeansOf
      dsimp only
      rw [if_pos hln, hu]
      rfl

/-- Three samples, the second of which has one variate less. -/
example :
    let h : List (Op (ℚ × List ℚ) Unit) := [.push (9, [1, 2]), .push (7, [3]), .push (5, [4, 5])]
    Spec.tailCount .right (pushes h).length (1 / 3 : ℚ) = 2 ∧
    tailVariateMeans HeapImpl.simple .right false true 4 0 [] h (1 / 3) = .ub := by
  decide +kernel

/-- **C21** Too few cached samples: NaN or an exception. -/
theorem C21_too_few (relative : Bool) (hk : 1 ≤ k)
    (hn : Spec.tailCount side (pushes h).length p = n) (hne : pushes h ≠ [])
    (h2 : min k (pushes h).length ≤ n) :
    tailVariateMeans H side relative hasNaN k x0 v0 h p =
      if hasNaN then .nonfinite else .thrown := by
  obtain ⟨s, out, hr, ht, hv, h3, D, h5, _⟩ := extract_both H side hk x0 v0 h
  have hl := extremes_length side k ((pushes h).map Prod.fst)
  rw [← h3] at hl
  have hl' : out.length = min k (pushes h).length := by simpa using hl
  have := List.length_pos_of_ne_nil hne
  simp only [tailVariateMeans, hr, Res.val_bind, tailN_eq hn, ht, hv, tailVariateMeansResult,
      tailVariateMeansOf]
  cases out with
  | nil => simp at hl'; omega
  | cons q qs =>
    simp only [List.map_cons]
    rw [if_neg (by rw [List.length_cons, List.length_map]; simp at hl'; omega)]
    rfl

/-- **C21/C56 fail without samples**: the number of variates is read from the first cached variate
even if there is none. -/
theorem C21_empty_ub (relative : Bool) (hk : 1 ≤ k) (hp : 0 ≤ p) (hp1 : p ≤ 1)
    (hne : pushes h = []) :
    tailVariateMeans H side relative hasNaN k x0 v0 h p = .ub := by
  obtain ⟨s, out, hr, ht, hv, h3, D, h5, _⟩ := extract_both H side hk x0 v0 h
  obtain ⟨n, hn⟩ := tailCount_nonneg (side := side) (cnt := (pushes h).length) hp hp1
  rw [hne] at h5
  have : out = [] := by
    have := h5.length_eq
    simp at this
    exact this.1
  subst this
  simp only [tailVariateMeans, hr, Res.val_bind, tailN_eq hn, ht, hv, tailVariateMeansResult,
      tailVariateMeansOf]
  rfl

end C21

example : ∃ sel : List (ℚ × List ℚ), sel.Subperm [(3, [1, 2]), (1, [5, 5]), (7, [3, 4])] ∧
    sel.map Prod.fst = Spec.extremes .right 2 [3, 1, 7] ∧
    tailVariateMeans HeapImpl.simple .right false true 3 (0 : ℚ) []
      [.push (3, [1, 2]), .query (), .push (1, [5, 5]), .push (7, [3, 4])] (1/3) =
      .val ((List.range 2).map (fun j => Spec.mean (sel.map (fun q => q.2.getD j 0)))) :=
  C21_absolute (k := 3) (n := 2) (d := 2) HeapImpl.simple .right true (0 : ℚ) []
    [.push (3, [1, 2]), .query (), .push (1, [5, 5]), .push (7, [3, 4])] (by norm_num)
    (by simp only [Spec.tailCount, pushes]; norm_num) (by norm_num) (by simp [pushes])
    (by simp [pushes])

/-! ## Tail parts of C10, C28, C54, C55, C56 -/

section cross
variable (H : HeapImpl ℕ) (side : Side) (hasNaN : Bool) {k : ℕ} (x0 : K) (v0 : V)
  (h : List (Op (K × V) Unit)) (p : K)

/-- All tail estimators as functions of the cached extremes (helper). -/
theorem tailQuantile_eq (hk : 1 ≤ k) : tailQuantile H side hasNaN k x0 v0 h p =
    (tailN side (pushes h).length p) >>= fun n =>
      tailQuantileResult hasNaN n (Spec.extremes side k ((pushes h).map Prod.fst)) := by
  obtain ⟨s, out, hr, ht, _, h3, _⟩ := extract_both H side hk x0 v0 h
  simp only [tailQuantile, hr, Res.val_bind, ht, h3]

theorem nonCoherentTailMean_eq (hk : 1 ≤ k) : nonCoherentTailMean H side hasNaN k x0 v0 h p =
    (tailN side (pushes h).length p) >>= fun n =>
      nonCoherentTailMeanResult hasNaN n (Spec.extremes side k ((pushes h).map Prod.fst)) := by
  obtain ⟨s, out, hr, ht, _, h3, _⟩ := extract_both H side hk x0 v0 h
  simp only [nonCoherentTailMean, hr, Res.val_bind, ht, h3]

theorem coherentTailMean_eq (hk : 1 ≤ k) : coherentTailMean H side hasNaN k x0 v0 h p =
    (tailN side (pushes h).length p) >>= fun n =>
      coherentTailMeanResult side hasNaN (pushes h).length n p
        (tailQuantileResult hasNaN n (Spec.extremes side k ((pushes h).map Prod.fst)))
        (Spec.extremes side k ((pushes h).map Prod.fst)) := by
  obtain ⟨s, out, hr, ht, _, h3, _⟩ := extract_both H side hk x0 v0 h
  simp only [coherentTailMean, hr, Res.val_bind, ht, h3]

theorem byExtremity_congr {α : Type} [LinearOrder α] {side : Side} {xs ys : List α}
    (hp : xs.Perm ys) : Spec.byExtremity side xs = Spec.byExtremity side ys :=
  byExtremity_unique ((byExtremity_perm side xs).trans hp) (byExtremity_sorted side xs)

/-- **C10**, tail part: the order of arrival of the samples (and the position of extractions) does not
matter for the tail, its quantiles and its means, even for different heap implementations. -/
theorem C10_tail_perm (H H' : HeapImpl ℕ) (h h' : List (Op (K × V) Unit)) (x0 x0' : K) (v0 v0' : V)
    (hk : 1 ≤ k) (hp : ((pushes h).map Prod.fst).Perm ((pushes h').map Prod.fst)) :
    extractTail H side k x0 v0 h = extractTail H' side k x0' v0' h' ∧
    tailQuantile H side hasNaN k x0 v0 h p = tailQuantile H' side hasNaN k x0' v0' h' p ∧
    nonCoherentTailMean H side hasNaN k x0 v0 h p =
      nonCoherentTailMean H' side hasNaN k x0' v0' h' p ∧
    coherentTailMean H side hasNaN k x0 v0 h p =
      coherentTailMean H' side hasNaN k x0' v0' h' p := by
  have hl : (pushes h).length = (pushes h').length := by simpa using hp.length_eq
  have he : Spec.extremes side k ((pushes h).map Prod.fst) =
      Spec.extremes side k ((pushes h').map Prod.fst) := by
    simp only [Spec.extremes, byExtremity_congr hp]
  refine ⟨?_, ?_, ?_, ?_⟩
  · rw [C15_tail H side hk, C15_tail H' side hk, he]
  · rw [tailQuantile_eq H side hasNaN x0 v0 h p hk, tailQuantile_eq H' side hasNaN x0' v0' h' p hk,
      he, hl]
  · rw [nonCoherentTailMean_eq H side hasNaN x0 v0 h p hk,
      nonCoherentTailMean_eq H' side hasNaN x0' v0' h' p hk, he, hl]
  · rw [coherentTailMean_eq H side hasNaN x0 v0 h p hk,
      coherentTailMean_eq H' side hasNaN x0' v0' h' p hk, he, hl]

/-- **C16/C28**, tail part: extracting quantiles, means and the tail at any points of the history
changes none of them later. -/
theorem C28_tail_transparent (hk : 1 ≤ k) :
    tailQuantile H side hasNaN k x0 v0 h p =
      tailQuantile H side hasNaN k x0 v0 (onlyPushes (pushes h)) p ∧
    nonCoherentTailMean H side hasNaN k x0 v0 h p =
      nonCoherentTailMean H side hasNaN k x0 v0 (onlyPushes (pushes h)) p ∧
    coherentTailMean H side hasNaN k x0 v0 h p =
      coherentTailMean H side hasNaN k x0 v0 (onlyPushes (pushes h)) p := by
  obtain ⟨_, a, b, c⟩ := C10_tail_perm (p := p) side hasNaN H H h (onlyPushes (pushes h)) x0 x0 v0 v0
    hk (by simp)
  exact ⟨a, b, c⟩

/-- The history in which every sample `x` is replaced by `f x`. -/
def Spec.mapSamples {α β V : Type} (f : α → β) (h : List (Op (α × V) Unit)) :
    List (Op (β × V) Unit) :=
  h.map (fun o => match o with
    | .push (x, v) => .push (f x, v)
    | .query q => .query q)

theorem pushes_mapSamples {α β V : Type} (f : α → β) (h : List (Op (α × V) Unit)) :
    (pushes (Spec.mapSamples f h)).map Prod.fst = ((pushes h).map Prod.fst).map f := by
  induction h with
  | nil => rfl
  | cons o h ih => cases o <;> simpa [Spec.mapSamples, pushes] using ih

theorem pushes_mapSamples_length {α β V : Type} (f : α → β) (h : List (Op (α × V) Unit)) :
    (pushes (Spec.mapSamples f h)).length = (pushes h).length := by
  simpa using congrArg List.length (pushes_mapSamples f h)

theorem extremes_map {side side' : Side} {f : K → K}
    (hf : ∀ a b, Spec.geExt side a b → Spec.geExt side' (f a) (f b)) (k : ℕ) (xs : List K) :
    Spec.extremes side' k (xs.map f) = (Spec.extremes side k xs).map f := by
  unfold Spec.extremes
  rw [List.map_take]
  congr 1
  symm
  apply byExtremity_unique
  · exact (byExtremity_perm side xs).map f
  · rw [List.pairwise_map]
    exact (byExtremity_sorted side xs).imp (fun h => hf _ _ h)

theorem tailQuantileResult_map (f : K → K) (n : ℕ) (l : List K) :
    tailQuantileResult hasNaN n (l.map f) = f <$> tailQuantileResult hasNaN n l := by
  unfold tailQuantileResult
  rw [List.length_map]
  split
  · split
    · rfl
    · rw [List.getElem?_map]
      cases l[n - 1]? <;> rfl
  · cases hasNaN <;> rfl

theorem sum_affine (a b : K) (l : List K) :
    (l.map (fun x => a * x + b)).sum = a * l.sum + l.length * b := by
  induction l with
  | nil => simp
  | cons x l ih => simp [ih]; ring

theorem nonCoherentResult_affine (a b : K) (n : ℕ) (l : List K) :
    nonCoherentTailMeanResult hasNaN n (l.map (fun x => a * x + b)) =
      (fun x => a * x + b) <$> nonCoherentTailMeanResult hasNaN n l := by
  unfold nonCoherentTailMeanResult
  rw [List.length_map]
  split
  · rename_i hle
    by_cases hn : (n : K) = 0
    · rw [hn]; simp only [fdiv_zero]; rfl
    · rw [fdiv_ne hn, fdiv_ne hn, ← List.map_take, ← List.sum_eq_foldl, ← List.sum_eq_foldl,
        sum_affine, List.length_take, Nat.min_eq_left hle, Res.map_val]
      congr 1
      field_simp
  · cases hasNaN <;> rfl

/-- **C54**, tail part: rescaling and shifting all samples rescales and shifts tail quantiles and
non-coherent tail means (and NaN, exceptions and undefined behaviour happen for the same calls). -/
theorem C54_tail_affine {a b : K} (ha : 0 < a) (hk : 1 ≤ k) :
    tailQuantile H side hasNaN k x0 v0 (Spec.mapSamples (fun x => a * x + b) h) p =
      (fun x => a * x + b) <$> tailQuantile H side hasNaN k x0 v0 h p ∧
    nonCoherentTailMean H side hasNaN k x0 v0 (Spec.mapSamples (fun x => a * x + b) h) p =
      (fun x => a * x + b) <$> nonCoherentTailMean H side hasNaN k x0 v0 h p := by
  have hf : ∀ y z : K, Spec.geExt side y z → Spec.geExt side (a * y + b) (a * z + b) := by
    intro y z hyz
    cases side <;> simp only [Spec.geExt] at * <;> nlinarith
  constructor
  · rw [tailQuantile_eq H side hasNaN x0 v0 _ p hk, tailQuantile_eq H side hasNaN x0 v0 _ p hk,
      pushes_mapSamples, pushes_mapSamples_length, extremes_map hf]
    cases tailN side (pushes h).length p <;> try rfl
    exact tailQuantileResult_map _ _ _ _
  · rw [nonCoherentTailMean_eq H side hasNaN x0 v0 _ p hk,
      nonCoherentTailMean_eq H side hasNaN x0 v0 _ p hk,
      pushes_mapSamples, pushes_mapSamples_length, extremes_map hf]
    cases tailN side (pushes h).length p <;> try rfl
    exact nonCoherentResult_affine _ _ _ _ _

/-- **C55**, tail part: the left tail statistic of a stream at probability `p` is the negative of the
right tail statistic of the negated stream at probability `1 - p`. -/
theorem C55_tail_mirror (hk : 1 ≤ k) :
    extractTail H .left k x0 v0 (Spec.mapSamples (fun x => -x) h) =
      (fun l => l.map (fun x => -x)) <$> extractTail H .right k x0 v0 h ∧
    tailQuantile H .left hasNaN k x0 v0 (Spec.mapSamples (fun x => -x) h) p =
      (fun x => -x) <$> tailQuantile H .right hasNaN k x0 v0 h (1 - p) ∧
    nonCoherentTailMean H .left hasNaN k x0 v0 (Spec.mapSamples (fun x => -x) h) p =
      (fun x => -x) <$> nonCoherentTailMean H .right hasNaN k x0 v0 h (1 - p) := by
  have hf : ∀ y z : K, Spec.geExt .right y z → Spec.geExt .left (-y) (-z) := by
    intro y z hyz
    simp only [Spec.geExt] at *
    linarith
  have hN : tailN .left (pushes h).length p = tailN .right (pushes h).length (1 - p) := by
    have e : tailLevel Side.right (1 - p) = p := sub_sub_cancel 1 p
    unfold tailN
    rw [e]
    rfl
  refine ⟨?_, ?_, ?_⟩
  · rw [C15_tail H .left hk, C15_tail H .right hk, pushes_mapSamples, extremes_map hf]
    rfl
  · rw [tailQuantile_eq H _ hasNaN x0 v0 _ p hk, tailQuantile_eq H _ hasNaN x0 v0 _ _ hk,
      pushes_mapSamples, pushes_mapSamples_length, extremes_map hf, hN]
    cases tailN Side.right (pushes h).length (1 - p) <;> try rfl
    exact tailQuantileResult_map _ _ _ _
  · rw [nonCoherentTailMean_eq H _ hasNaN x0 v0 _ p hk,
      nonCoherentTailMean_eq H _ hasNaN x0 v0 _ _ hk,
      pushes_mapSamples, pushes_mapSamples_length, extremes_map hf, hN]
    cases tailN Side.right (pushes h).length (1 - p) with
    | val n =>
      have e := nonCoherentResult_affine hasNaN (-1) 0 n
        (Spec.extremes Side.right k ((pushes h).map Prod.fst))
      simp only [neg_one_mul, add_zero] at e
      exact e
    | _ => rfl

/-- **C56**, tail part: with a cache of at least one sample and a probability in `[0, 1]`, the tail and
the non-coherent mean are never undefined behaviour; the tail quantile is exactly when samples were
pushed and the level rounds to zero samples. -/
theorem C56_tail (hk : 1 ≤ k) (hp0 : 0 ≤ p) (hp1 : p ≤ 1) :
    extractTail H side k x0 v0 h ≠ .ub ∧
    nonCoherentTailMean H side hasNaN k x0 v0 h p ≠ .ub ∧
    (tailQuantile H side hasNaN k x0 v0 h p = .ub ↔
      pushes h ≠ [] ∧ Spec.tailCount side (pushes h).length p = 0) := by
  obtain ⟨n, hn⟩ := tailCount_nonneg (side := side) (cnt := (pushes h).length) hp0 hp1
  refine ⟨?_, ?_, ?_⟩
  · rw [C15_tail H side hk]; simp
  · rw [nonCoherentTailMean_eq H side hasNaN x0 v0 h p hk, tailN_eq hn, Res.val_bind]
    unfold nonCoherentTailMeanResult
    split
    · unfold fdiv; split <;> simp
    · unfold nanOrThrow; split <;> simp
  · rcases Nat.eq_zero_or_pos n with h0 | hpos
    · subst h0
      by_cases hne : pushes h = []
      · rw [C18_too_few H side hasNaN x0 v0 h hk hn (by simp [hne])]
        cases hasNaN <;> simp [hne]
      · rw [C18_zero_ub H side hasNaN x0 v0 h hk (by simpa using hn) hne]
        simpa [hne] using hn
    · have hne : ¬ (Spec.tailCount side (pushes h).length p = 0) := by rw [hn]; omega
      rcases Nat.lt_or_ge n (min k (pushes h).length) with hlt | hge
      · obtain ⟨x, hx, _⟩ := C18_quantile H side hasNaN x0 v0 h hk hn hpos hlt
        rw [hx]; simp [hne]
      · rw [C18_too_few H side hasNaN x0 v0 h hk hn hge]
        cases hasNaN <;> simp [hne]

end cross

end Acc
