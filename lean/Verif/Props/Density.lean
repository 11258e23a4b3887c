import Verif.Proofs.Density
import Verif.Proofs.Tail
import Mathlib.Algebra.BigOperators.Group.Finset.Basic
import Mathlib.Algebra.Order.BigOperators.Group.List
import Mathlib.Tactic.NormNum

/-!
# Properties of the histogram densities (C26, C27 and their share of C10, C28, C35, C36, C56)

`lo`, `hi` are the limits of the sample type (`numeric_limits`), `c` the cache size, `B` the number of
bins, `a` and `b` the least and greatest of the first `c` samples.
-/

set_option linter.unusedSectionVars false

namespace Acc

variable {K : Type} [Field K] [LinearOrder K] [IsStrictOrderedRing K]

open Spec

/-! ## The bins -/

/-- **C26** Every value belongs to exactly one of the `B + 2` bins. -/
theorem C26_partition {a b : K} (hab : a ≤ b) {B : ℕ} (hB : 0 < B) (x : K) :
    ∃! i, i ≤ B + 1 ∧ inBin a b B i x := by
  obtain ⟨k, hk, hin, _⟩ := binAdd_spec hab hB (List.replicate (B + 2) 0) (by simp) x 0
  exact ⟨k, ⟨hk, hin⟩, fun j ⟨hj, hj'⟩ => inBin_unique hab hB hj hk hj' hin⟩

/-- **C26** The bin edges are equally spaced and cover `[a, b]`. -/
theorem C26_edges (a b : K) {B : ℕ} (hB : 0 < B) :
    edge a b B 1 = a ∧ edge a b B (B + 1) = b ∧
      ∀ i, edge a b B (i + 1) - edge a b B i = (b - a) / (B : K) := by
  refine ⟨edge_one a b B, edge_last a b hB, fun i => ?_⟩
  unfold edge
  push_cast
  ring

theorem sum_range_eq {M : Type*} [AddCommMonoid M] (n : ℕ) (f : ℕ → M) :
    ((List.range n).map f).sum = ∑ i ∈ Finset.range n, f i := by
  rw [Finset.sum, Finset.range_val, Multiset.range, Multiset.map_coe, Multiset.sum_coe]

theorem sum_binWeight {a b : K} (hab : a ≤ b) {B : ℕ} (hB : 0 < B) (ps : List (K × K)) :
    ((List.range (B + 2)).map (fun i => binWeight a b B i ps)).sum = wtotal ps := by
  rw [sum_range_eq]
  induction ps using List.reverseRecOn with
  | nil => simp [binWeight, wtotal]
  | append_singleton ps p ih =>
    simp only [binWeight_snoc, Finset.sum_add_distrib, ih]
    obtain ⟨k, ⟨hk, hin⟩, huniq⟩ := C26_partition hab hB p.1
    rw [Finset.sum_eq_single k]
    · simp [hin, wtotal]
    · intro j hj hne
      rw [if_neg]
      intro h
      exact hne (huniq j ⟨by simp at hj; omega, h⟩)
    · intro h
      simp at h; omega

theorem cacheMin_unique {hi a : K} {c : ℕ} {ps : List (K × K)} (hhi : ∀ p ∈ ps, p.1 ≤ hi)
    (ha : IsLeast {x | x ∈ (ps.take c).map Prod.fst} a) : cacheMin hi c ps = a := by
  have hne : (ps.take c).map Prod.fst ≠ [] := List.ne_nil_of_mem ha.1
  exact (C09_min hi _ hne (fun x hx => by
    obtain ⟨p, hp, rfl⟩ := List.mem_map.mp hx
    exact hhi p (List.mem_of_mem_take hp))).unique ha

theorem cacheMax_unique {lo b : K} {c : ℕ} {ps : List (K × K)} (hlo : ∀ p ∈ ps, lo ≤ p.1)
    (hb : IsGreatest {x | x ∈ (ps.take c).map Prod.fst} b) : cacheMax lo c ps = b := by
  have hne : (ps.take c).map Prod.fst ≠ [] := List.ne_nil_of_mem hb.1
  exact (C09_max lo _ hne (fun x hx => by
    obtain ⟨p, hp, rfl⟩ := List.mem_map.mp hx
    exact hlo p (List.mem_of_mem_take hp))).unique hb

/-! ## C27 weighted density -/

/-- **C27** Once the cache is full, `weighted_density(acc)` lists for each bin its lower edge and the
weight of the samples that belong to it divided by the total weight, after any history of pushes and
extractions. -/
theorem C27_density {lo hi : K} {c B : ℕ} (hB : 0 < B) (x0 : K)
    (h : List (Op (K × K) Unit)) (hlim : ∀ p ∈ pushes h, lo ≤ p.1 ∧ p.1 ≤ hi)
    (hfull : c ≤ (pushes h).length) {a b : K}
    (ha : IsLeast {x | x ∈ ((pushes h).take c).map Prod.fst} a)
    (hb : IsGreatest {x | x ∈ ((pushes h).take c).map Prod.fst} b)
    (hw : wtotal (pushes h) ≠ 0) :
    (wdensitySet lo hi c B x0).answer h () =
      .val ((List.range (B + 2)).map (fun i =>
        (edge a b B i, .val (binWeight a b B i (pushes h) / wtotal (pushes h))))) := by
  have hc : 0 < c := by
    rcases Nat.eq_zero_or_pos c with rfl | hc
    · simp [IsLeast] at ha
    · exact hc
  rw [wdensity_answer hc hB x0 h hlim, wtable, if_neg (by omega),
    cacheMin_unique (fun p hp => (hlim p hp).2) ha, cacheMax_unique (fun p hp => (hlim p hp).1) hb]
  simp only [fdiv_ne hw]

/-- Hypotheses of `C27_density`: four weighted samples, two of them in the cache phase, an extraction in between. -/
example : (wdensitySet (-100 : ℚ) 100 2 2 0).answer
      [.push (0, 1), .query (), .push (4, 2), .push (1, 1), .push (7, 4)] ()
    = .val [(-2, .val 0), (0, .val (1 / 4)), (2, .val 0), (4, .val (3 / 4))] := by
  have := C27_density (lo := (-100 : ℚ)) (hi := 100) (c := 2) (B := 2) (a := 0) (b := 4) (by norm_num) 0
    [.push (0, 1), .query (), .push (4, 2), .push (1, 1), .push (7, 4)] (by decide +kernel) (by decide)
    (by constructor
        · simp [pushes]
        · intro x hx; simp [pushes] at hx; rcases hx with rfl | rfl <;> norm_num)
    (by constructor
        · simp [pushes]
        · intro x hx; simp [pushes] at hx; rcases hx with rfl | rfl <;> norm_num)
    (by decide +kernel)
  rw [this]
  decide +kernel

/-- **C27** The reported fractions sum to exactly 1. -/
theorem C27_total {a b : K} (hab : a ≤ b) {B : ℕ} (hB : 0 < B) (ps : List (K × K))
    (hw : wtotal ps ≠ 0) :
    ((List.range (B + 2)).map (fun i => binWeight a b B i ps / wtotal ps)).sum = 1 := by
  have := sum_binWeight hab hB ps
  rw [sum_range_eq] at this
  rw [sum_range_eq, ← Finset.sum_div, this, div_self hw]

/-- **C27** With positive weights all fractions are non-negative. -/
theorem C27_nonneg (a b : K) (B i : ℕ) (ps : List (K × K)) (hw : ∀ p ∈ ps, 0 ≤ p.2) :
    0 ≤ binWeight a b B i ps / wtotal ps := by
  apply div_nonneg <;> apply List.sum_nonneg <;> intro x hx <;>
    obtain ⟨q, hq, rfl⟩ := List.mem_map.mp hx
  · exact hw q (List.mem_of_mem_filter hq)
  · exact hw q hq

/-- **C27** With zero total weight every fraction is NaN or infinite. -/
theorem C27_zero_weight {lo hi : K} {c B : ℕ} (hc : 0 < c) (hB : 0 < B) (x0 : K)
    (h : List (Op (K × K) Unit)) (hlim : ∀ p ∈ pushes h, lo ≤ p.1 ∧ p.1 ≤ hi)
    (hw : wtotal (pushes h) = 0) :
    ∃ table, (wdensitySet lo hi c B x0).answer h () = .val table ∧
      ∀ r ∈ table, r.2 = .nonfinite := by
  refine ⟨_, wdensity_answer hc hB x0 h hlim, ?_⟩
  intro r hr
  unfold wtable at hr
  split at hr
  · obtain rfl := List.eq_of_mem_replicate hr
    simp [hw]
  · obtain ⟨i, _, rfl⟩ := List.mem_map.mp hr
    simp [hw]

/-- **C28** Extractions in between do not change what `weighted_density` returns. -/
theorem C28_wdensity_transparent {lo hi : K} {c B : ℕ} (hc : 0 < c) (hB : 0 < B) (x0 : K)
    (h : List (Op (K × K) Unit)) (hlim : ∀ p ∈ pushes h, lo ≤ p.1 ∧ p.1 ≤ hi) :
    (wdensitySet lo hi c B x0).answer h () =
      (wdensitySet lo hi c B x0).answer (onlyPushes (pushes h)) () := by
  rw [wdensity_answer hc hB x0 h hlim, wdensity_answer hc hB x0 _ (by rwa [pushes_onlyPushes]),
    pushes_onlyPushes]

/-- **C36** Scaling all weights by a common non-zero factor does not change the histogram. -/
theorem C36_density_scale {lo hi : K} {c B : ℕ} (hc : 0 < c) (hB : 0 < B) (x0 : K)
    (ps : List (K × K)) (hlim : ∀ p ∈ ps, lo ≤ p.1 ∧ p.1 ≤ hi) {k : K} (hk : k ≠ 0) :
    (wdensitySet lo hi c B x0).answer (onlyPushes (ps.map (fun p => (p.1, k * p.2)))) () =
      (wdensitySet lo hi c B x0).answer (onlyPushes ps) () := by
  have hlim' : ∀ p ∈ ps.map (fun p => (p.1, k * p.2)), lo ≤ p.1 ∧ p.1 ≤ hi := by
    intro p hp
    obtain ⟨q, hq, rfl⟩ := List.mem_map.mp hp
    exact hlim q hq
  rw [wdensity_answer hc hB x0 _ (by rwa [pushes_onlyPushes]),
    wdensity_answer hc hB x0 _ (by rwa [pushes_onlyPushes]), pushes_onlyPushes, pushes_onlyPushes]
  congr 1
  have htot : wtotal (ps.map (fun p => (p.1, k * p.2))) = k * wtotal ps := by
    unfold wtotal
    rw [List.map_map, ← List.sum_map_mul_left]
    rfl
  have hmin : cacheMin hi c (ps.map (fun p => (p.1, k * p.2))) = cacheMin hi c ps := by
    unfold cacheMin
    rw [← List.map_take, List.map_map]
    rfl
  have hmax : cacheMax lo c (ps.map (fun p => (p.1, k * p.2))) = cacheMax lo c ps := by
    unfold cacheMax
    rw [← List.map_take, List.map_map]
    rfl
  have hbin : ∀ (a b : K) (i : ℕ), binWeight a b B i (ps.map (fun p => (p.1, k * p.2)))
      = k * binWeight a b B i ps := by
    intro a b i
    unfold binWeight
    rw [← List.sum_map_mul_left, List.filter_map, List.map_map]
    rfl
  have hdiv : ∀ x y : K, fdiv (k * x) (k * y) = fdiv x y := by
    intro x y
    unfold fdiv
    by_cases hy : y = 0
    · simp [hy]
    · simp [hy, hk, mul_div_mul_left]
  unfold wtable
  simp only [List.length_map, htot, hmin, hmax, hbin, hdiv]
  have := hdiv 0 (wtotal ps)
  rw [mul_zero] at this
  rw [this]

/-! ## C26 density -/

/-- **C26** Once the cache is full, `density(acc)` lists for each bin its lower edge and the number of
samples that belong to it divided by the number of samples, after any history of pushes and
extractions. -/
theorem C26_density {lo hi : K} {c B : ℕ} (hB : 0 < B) (x0 : K)
    (h : List (Op K Unit)) (hlim : ∀ x ∈ pushes h, lo ≤ x ∧ x ≤ hi)
    (hfull : c ≤ (pushes h).length) {a b : K}
    (ha : IsLeast {x | x ∈ (pushes h).take c} a)
    (hb : IsGreatest {x | x ∈ (pushes h).take c} b) :
    (densitySet lo hi c B x0).answer h () =
      .val ((List.range (B + 2)).map (fun i =>
        (edge a b B i,
          .val ((binCount a b B i (pushes h) : K) / ((pushes h).length : K))))) := by
  have hc : 0 < c := by
    rcases Nat.eq_zero_or_pos c with rfl | hc
    · simp [IsLeast] at ha
    · exact hc
  have hlim' : ∀ p ∈ (pushes h).map (fun x => (x, (1 : K))), lo ≤ p.1 ∧ p.1 ≤ hi := by
    intro p hp
    obtain ⟨x, hx, rfl⟩ := List.mem_map.mp hp
    exact hlim x hx
  have e : (((pushes h).map (fun x => (x, (1 : K)))).take c).map Prod.fst = (pushes h).take c := by
    rw [← List.map_take, List.map_map]
    simp [Function.comp_def]
  have hne : ((pushes h).length : K) ≠ 0 := Nat.cast_ne_zero.2 (by omega)
  have ht : wtotal ((pushes h).map (fun x => (x, (1 : K)))) = ((pushes h).length : K) := by
    simp [wtotal, Function.comp_def]
  rw [density_answer hc hB x0 h hlim, wtable, if_neg (by rw [List.length_map]; omega),
    cacheMin_unique (fun p hp => (hlim' p hp).2) (by rw [e]; exact ha),
    cacheMax_unique (fun p hp => (hlim' p hp).1) (by rw [e]; exact hb)]
  simp only [binWeight_unit, ht, fdiv_ne hne]

/-- **C26** The fractions are non-negative and sum to exactly 1: nothing is lost or counted twice. -/
theorem C26_total {a b : K} (hab : a ≤ b) {B : ℕ} (hB : 0 < B) (xs : List K) (h : xs ≠ []) :
    ((List.range (B + 2)).map (fun i => (binCount a b B i xs : K) / (xs.length : K))).sum = 1 ∧
      ∀ i, 0 ≤ (binCount a b B i xs : K) / (xs.length : K) := by
  refine ⟨?_, fun i => div_nonneg (Nat.cast_nonneg _) (Nat.cast_nonneg _)⟩
  have ht : wtotal (xs.map (fun x => (x, (1 : K)))) = (xs.length : K) := by
    simp [wtotal, Function.comp_def]
  have := C27_total hab hB (xs.map (fun x => (x, (1 : K))))
    (by rw [ht]; exact Nat.cast_ne_zero.2 (by simpa using h))
  simpa only [binWeight_unit, ht] using this

/-- **C26** The documented precondition matters: before the cache is full the histogram consists of
zeros (fraction 0 at position 0 in every bin), or NaN if there are no samples at all. -/
theorem C26_before_full {lo hi : K} {c B : ℕ} (hc : 0 < c) (hB : 0 < B) (x0 : K)
    (h : List (Op K Unit)) (hlim : ∀ x ∈ pushes h, lo ≤ x ∧ x ≤ hi)
    (hfull : (pushes h).length < c) :
    (densitySet lo hi c B x0).answer h () =
      .val (List.replicate (B + 2) (0, if pushes h = [] then .nonfinite else .val 0)) := by
  have ht : wtotal ((pushes h).map (fun x => (x, (1 : K)))) = ((pushes h).length : K) := by
    simp [wtotal, Function.comp_def]
  rw [density_answer hc hB x0 h hlim, wtable, if_pos (by simpa using hfull), ht]
  by_cases he : pushes h = []
  · simp [he]
  · rw [fdiv_ne (Nat.cast_ne_zero.2 (by simpa using he))]
    simp [he]

/-- **C28** Extractions in between do not change what `density` returns. -/
theorem C28_density_transparent {lo hi : K} {c B : ℕ} (hc : 0 < c) (hB : 0 < B) (x0 : K)
    (h : List (Op K Unit)) (hlim : ∀ x ∈ pushes h, lo ≤ x ∧ x ≤ hi) :
    (densitySet lo hi c B x0).answer h () =
      (densitySet lo hi c B x0).answer (onlyPushes (pushes h)) () := by
  rw [density_answer hc hB x0 h hlim, density_answer hc hB x0 _ (by rwa [pushes_onlyPushes]),
    pushes_onlyPushes]

/-- **C10** Two streams with the same samples, and the same samples in the cache phase, have the same
histogram. -/
theorem C10_density_perm {lo hi : K} {c B : ℕ} (hc : 0 < c) (hB : 0 < B) (x0 : K) (xs ys : List K)
    (hlim : ∀ x ∈ xs, lo ≤ x ∧ x ≤ hi) (hfull : c ≤ xs.length) (hp : xs.Perm ys)
    (hpc : (xs.take c).Perm (ys.take c)) :
    (densitySet lo hi c B x0).answer (onlyPushes xs) () =
      (densitySet lo hi c B x0).answer (onlyPushes ys) () := by
  have hne : xs.take c ≠ [] := by
    intro h0
    have := congrArg List.length h0
    rw [List.length_take, List.length_nil] at this
    omega
  have ha := C09_min hi (xs.take c) hne (fun x hx => (hlim x (List.mem_of_mem_take hx)).2)
  have hb := C09_max lo (xs.take c) hne (fun x hx => (hlim x (List.mem_of_mem_take hx)).1)
  have hset : {x | x ∈ xs.take c} = {x | x ∈ ys.take c} := by
    ext x; exact hpc.mem_iff
  have h1 := C26_density (lo := lo) (hi := hi) (c := c) hB x0 (onlyPushes xs)
    (by rwa [pushes_onlyPushes]) (by rwa [pushes_onlyPushes])
    (by rw [pushes_onlyPushes]; exact ha) (by rw [pushes_onlyPushes]; exact hb)
  have h2 := C26_density (lo := lo) (hi := hi) (c := c) hB x0 (onlyPushes ys)
    (by rw [pushes_onlyPushes]; exact fun x hx => hlim x (hp.mem_iff.2 hx))
    (by rw [pushes_onlyPushes, ← hp.length_eq]; exact hfull)
    (by rw [pushes_onlyPushes, ← hset]; exact ha) (by rw [pushes_onlyPushes, ← hset]; exact hb)
  rw [h1, h2, pushes_onlyPushes, pushes_onlyPushes, hp.length_eq]
  simp only [binCount, hp.countP_eq]

/-- **C35** With unit weights `weighted_density` returns what `density` returns. -/
theorem C35_density {lo hi : K} {c B : ℕ} (hc : 0 < c) (hB : 0 < B) (x0 : K) (xs : List K)
    (hlim : ∀ x ∈ xs, lo ≤ x ∧ x ≤ hi) :
    (wdensitySet lo hi c B x0).answer (onlyPushes (xs.map (fun x => (x, 1)))) () =
      (densitySet lo hi c B x0).answer (onlyPushes xs) () := by
  rw [density_answer hc hB x0 _ (by rwa [pushes_onlyPushes]), wdensity_answer hc hB x0 _ ?_,
    pushes_onlyPushes, pushes_onlyPushes]
  rw [pushes_onlyPushes]
  intro p hp
  obtain ⟨x, hx, rfl⟩ := List.mem_map.mp hp
  exact hlim x hx

/-- **C56** No history of pushes and extractions on a `density` or `weighted_density` set with
`cache_size ≥ 1`, `num_bins ≥ 1` is undefined; an answer always comes back. -/
theorem C56_density {lo hi : K} {c B : ℕ} (hc : 0 < c) (hB : 0 < B) (x0 : K)
    (h : List (Op K Unit)) (hlim : ∀ x ∈ pushes h, lo ≤ x ∧ x ≤ hi)
    (g : List (Op (K × K) Unit)) (hlim' : ∀ p ∈ pushes g, lo ≤ p.1 ∧ p.1 ≤ hi) :
    (∃ r, (densitySet lo hi c B x0).answer h () = .val r ∧ r.length = B + 2) ∧
      ∃ r, (wdensitySet lo hi c B x0).answer g () = .val r ∧ r.length = B + 2 := by
  refine ⟨⟨_, density_answer hc hB x0 h hlim, ?_⟩, _, wdensity_answer hc hB x0 g hlim', ?_⟩ <;>
    (unfold wtable; split <;> simp)

/-! ## A concrete case -/

example : (densitySet (-100 : ℚ) 100 3 2 0).answer
    [.push 0, .push 4, .query (), .push 2, .push 1, .query (), .push 9, .push (-1), .push 3, .push 3]
    () = .val [(-2, .val (1/8)), (0, .val (2/8)), (2, .val (3/8)), (4, .val (2/8))] := by
  rw [C26_density (a := 0) (b := 4) (by norm_num) 0 _ (by simp [pushes]; norm_num)
    (by simp [pushes])]
  · simp [pushes, List.range_succ, edge, binCount, inBin]
    norm_num
  · simp [pushes, IsLeast, lowerBounds]
  · simp [pushes, IsGreatest, upperBounds]; norm_num

end Acc
