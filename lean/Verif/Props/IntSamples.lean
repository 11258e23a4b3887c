import Verif.Proofs.IntSamples
import Verif.Props.Basic

/-!
# C66: samples of an integral type

Which statistics of an `accumulator_set<int, ...>` (or any other integral sample type) are right, for which streams, and
what happens on the others.  `T.InR z` says that `z` is a value of the type `T`.
-/

set_option linter.unusedSectionVars false

namespace Acc

open IntTy

/-! ## sum -/

/-- **C66.** The sum is exact if every partial sum is a value of the sample type. -/
theorem C66_sum_exact {T : IntTy} (hT : 0 < T.bits) (xs : List ℤ)
    (h : ∀ p, p <+: xs → T.lo ≤ p.sum ∧ p.sum ≤ T.hi) : sumInt T xs = .val xs.sum :=
  sumInt_exact hT xs h

/-- **C66.** For a signed type not narrower than `int` the condition is necessary: if some partial sum is out of range, even
when the total is not, the behaviour is undefined. -/
theorem C66_sum_overflow {T : IntTy} (hb : 32 ≤ T.bits) (hs : T.signed = true) (xs : List ℤ)
    (h : ∃ p, p <+: xs ∧ ¬ (T.lo ≤ p.sum ∧ p.sum ≤ T.hi)) : sumInt T xs = .ub :=
  sumInt_overflow hb hs xs h

/-- **C66.** For unsigned types and those narrower than `int` the sum is the value of the type congruent to the total,
however many partial sums wrapped around; it is the total itself if that is a value of the type. -/
theorem C66_sum_wraps {T : IntTy} (hT : 0 < T.bits) (hw : T.bits ≤ 30 ∨ 32 ≤ T.bits ∧ T.signed = false) (xs : List ℤ)
    (hx : ∀ x ∈ xs, T.lo ≤ x ∧ x ≤ T.hi) :
    ∃ s, sumInt T xs = .val s ∧ (T.lo ≤ s ∧ s ≤ T.hi) ∧ s ≡ xs.sum [ZMOD 2 ^ T.bits] ∧
      (T.lo ≤ xs.sum ∧ xs.sum ≤ T.hi → s = xs.sum) := by
  refine ⟨_, sumInt_wraps ⟨hT, hw⟩ xs hx, inR_wrap hT _, ?_, wrap_of_inR hT⟩
  unfold wrap
  split_ifs
  · have := Int.bmod_emod (x := xs.sum) (m := 2 ^ T.bits)
    push_cast at this
    exact this
  · exact Int.mod_modEq _ _

/-- The order of the samples matters for `int`: the same total, once right, once undefined. -/
theorem C66_sum_order :
    sumInt int [2 ^ 31 - 1, -1, 1] = .val (2 ^ 31 - 1) ∧ sumInt int [2 ^ 31 - 1, 1, -1] = .ub := by
  decide +kernel

example : sumInt ushort [65535, 65535, 3] = .val 1 := by decide +kernel
example : sumInt ⟨16, true⟩ [32767, 1] = .val (-32768) := by decide +kernel

/-! ## mean -/

section
variable {K : Type} [Field K] [LinearOrder K] [IsStrictOrderedRing K]

theorem castSum (xs : List ℤ) : ((xs.sum : ℤ) : K) = (xs.map fun z : ℤ => (z : K)).sum := by
  induction xs with
  | nil => simp
  | cons x xs ih => simp [ih]

/-- **C66.** The lazy mean is exact (no truncation to an integer) if every partial sum is a value of the sample type. -/
theorem C66_lazy_mean {T : IntTy} (hT : 0 < T.bits) (xs : List ℤ) (hne : xs ≠ [])
    (h : ∀ p, p <+: xs → T.lo ≤ p.sum ∧ p.sum ≤ T.hi) :
    lazyMeanInt (K := K) T xs = .val ((xs.map fun z : ℤ => (z : K)).sum / (xs.length : K)) := by
  unfold lazyMeanInt
  rw [sumInt_exact hT xs h, Res.val_bind, fdiv_ne (length_cast_ne hne), castSum]

/-- **C66.** The immediate mean is exact whatever the samples. -/
theorem C66_immediate_mean (xs : List ℤ) (hne : xs ≠ []) :
    immMeanInt (K := K) xs = .val ((xs.map fun z : ℤ => (z : K)).sum / (xs.length : K)) := by
  have := C04_immediate_mean (0 : K) (xs.map fun z : ℤ => (z : K)) (by simpa using hne)
  rw [List.length_map] at this
  rw [← this]
  unfold immMeanInt MeanProvider.run
  rw [List.foldl_map]
  rfl

/-- The two variants of the mean are not interchangeable for integral samples: where the sum leaves the range the lazy mean
of `int` is undefined and that of `unsigned` is wrong, the immediate mean right. -/
theorem C66_means_differ :
    (lazyMeanInt (K := ℚ) int [2 ^ 31 - 1, 1] = .ub ∧ immMeanInt (K := ℚ) [2 ^ 31 - 1, 1] = .val (2 ^ 30)) ∧
    lazyMeanInt (K := ℚ) uint [2 ^ 32 - 1, 1] = .val 0 ∧ immMeanInt (K := ℚ) [2 ^ 32 - 1, 1] = .val (2 ^ 31) := by
  decide +kernel

example : lazyMeanInt (K := ℚ) int [1, 2] = .val (3 / 2) := by
  rw [C66_lazy_mean (by decide) _ (by simp)]
  · norm_num
  · intro p hp
    have : p ∈ [[], [1], [1, 2]] := by
      have := (List.mem_inits p [(1 : ℤ), 2]).2 hp
      simpa using this
    simp only [List.mem_cons, List.not_mem_nil, or_false] at this
    rcases this with rfl | rfl | rfl <;> decide

/-! ## moment -/

/-- **C66.** `moment<N>` of an integral type is exact if the sum of the absolute `N`-th powers is a value of the type. -/
theorem C66_moment {T : IntTy} (hT : 0 < T.bits) {N : ℕ} (xs : List ℤ) (hne : xs ≠ [])
    (hx : ∀ x ∈ xs, T.lo ≤ x ∧ x ≤ T.hi) (h : (xs.map fun x => |x| ^ N).sum ≤ T.hi) :
    momentInt (K := K) T N xs = .val ((xs.map fun z : ℤ => (z : K) ^ N).sum / (xs.length : K)) := by
  unfold momentInt
  rw [momentSumInt_exact hT xs _ h, Res.val_bind, fdiv_ne (length_cast_ne hne), castSum, List.map_map]
  · congr 3
    refine List.map_congr_left fun z _ => ?_
    simp
  · intro hs x hx'
    have := (hx x hx').1
    unfold lo at this
    rw [hs] at this
    exact this

/-- A single sample that is a value of the type is enough to make `moment<2>` undefined (`int`; `unsigned short`, whose product
is computed as `int`) or wrong (`unsigned`). -/
theorem C66_moment_fails :
    momentInt (K := ℚ) int 2 [46341] = .ub ∧ momentInt (K := ℚ) ushort 2 [65535] = .ub ∧
      momentInt (K := ℚ) uint 2 [65536] = .val 0 := by
  have h : ∀ T x, powInt T x 2 = (do let z ← T.mul x x; .val z) := by
    intro T x
    unfold powInt
    have : powInt T x 1 = .val x := by unfold powInt; rfl
    rw [dif_neg (by decide), dif_neg (by decide), show 2 / 2 = 1 from rfl, this]
    rfl
  have hm : ∀ T x, momentInt (K := ℚ) T 2 [x]
      = (T.mul x x).bind fun z => (T.add 0 z).bind fun s => fdiv (s : ℚ) 1 := by
    intro T x
    simp only [momentInt, momentSumInt, List.foldlM_cons, List.foldlM_nil, h, List.length_singleton, Nat.cast_one]
    cases T.mul x x with
    | val z => show (((T.add 0 z).bind _).bind _) = (T.add 0 z).bind _; cases T.add 0 z <;> rfl
    | _ => rfl
  rw [hm, hm, hm]
  decide +kernel

example : momentInt (K := ℚ) int 3 [-1, 2, 1000] = .val (1000000007 / 3) := by
  rw [C66_moment (by decide) _ (by simp) (by decide) (by decide)]
  norm_num

/-! ## rolling sum and mean -/

/-- **C66.** The rolling sum is exact as long as the total of every window, with and without its oldest sample, is a value of
the type - the samples that left do not matter. -/
theorem C66_rolling_sum {T : IntTy} (hT : 0 < T.bits) {N : ℕ} (hN : 0 < N) (xs : List ℤ)
    (h : ∀ p, p <+: xs → (T.lo ≤ (Spec.lastN N p).sum ∧ (Spec.lastN N p).sum ≤ T.hi) ∧
      T.lo ≤ (Spec.lastN (N - 1) p).sum ∧ (Spec.lastN (N - 1) p).sum ≤ T.hi) :
    ∃ b, rollingSumInt T N xs = .val (b, (Spec.lastN N xs).sum) :=
  ⟨_, rollingSumInt_exact hT hN xs h⟩

/-- **C66.** For unsigned types and those narrower than `int` the rolling sum is exact whenever the total of the *current*
window is a value of the type, and congruent to it otherwise: an earlier overflow leaves no trace. -/
theorem C66_rolling_sum_wraps {T : IntTy} (hT : 0 < T.bits) (hw : T.bits ≤ 30 ∨ 32 ≤ T.bits ∧ T.signed = false) {N : ℕ}
    (hN : 0 < N) (xs : List ℤ) (hx : ∀ x ∈ xs, T.lo ≤ x ∧ x ≤ T.hi) :
    ∃ b s, rollingSumInt T N xs = .val (b, s) ∧ (T.lo ≤ s ∧ s ≤ T.hi) ∧ s ≡ (Spec.lastN N xs).sum [ZMOD 2 ^ T.bits] ∧
      (T.lo ≤ (Spec.lastN N xs).sum ∧ (Spec.lastN N xs).sum ≤ T.hi → s = (Spec.lastN N xs).sum) := by
  refine ⟨_, _, rollingSumInt_wraps ⟨hT, hw⟩ hN xs hx, inR_wrap hT _, ?_, wrap_of_inR hT⟩
  unfold wrap
  split_ifs
  · have := Int.bmod_emod (x := (Spec.lastN N xs).sum) (m := 2 ^ T.bits)
    push_cast at this
    exact this
  · exact Int.mod_modEq _ _

example : rollingSumInt uint 2 [2 ^ 32 - 1, 2 ^ 32 - 1, 5, 7] = .val (⟨3, [2 ^ 32 - 1, 5, 7]⟩, 12) := by decide +kernel
/-- `int`: undefined although both windows of one sample are values. -/
example : (Spec.lastN 2 [2 ^ 31 - 1, 1, -5] : List ℤ).sum = -4 ∧ rollingSumInt int 2 [2 ^ 31 - 1, 1, -5] = .ub := by
  decide +kernel

/-- **C66.** The immediate rolling mean is the mean of the window if no two samples differ by more than the greatest value of
the (promoted) sample type. -/
theorem C66_rolling_mean {T : IntTy} {N : ℕ} (hN : 0 < N) (xs : List ℤ)
    (h : ∀ a ∈ xs, ∀ b ∈ xs, |a - b| ≤ T.promote.hi) :
    ∃ b, immRollingMeanInt (K := K) T N xs = .val (b, Spec.mean ((Spec.lastN N xs).map fun z : ℤ => (z : K))) :=
  ⟨_, immRollingMeanInt_exact hN xs h⟩

/-- **C66.** For unsigned sample types and those narrower than `int` the immediate rolling mean is right for all streams. -/
theorem C66_rolling_mean_all {T : IntTy} (hT : T.bits < 32 ∨ T.signed = false) {N : ℕ} (hN : 0 < N) (xs : List ℤ)
    (hx : ∀ x ∈ xs, T.lo ≤ x ∧ x ≤ T.hi) :
    ∃ b, immRollingMeanInt (K := K) T N xs = .val (b, Spec.mean ((Spec.lastN N xs).map fun z : ℤ => (z : K))) := by
  refine C66_rolling_mean hN xs fun a ha b hb => ?_
  obtain ⟨a1, a2⟩ := hx a ha
  obtain ⟨b1, b2⟩ := hx b hb
  rcases hT with hT | hT
  · have hp : T.promote.hi = 2 ^ 31 - 1 := by unfold promote; rw [if_pos hT]; rfl
    have h1 : (2 : ℤ) ^ T.bits ≤ 2 ^ 31 := pow_le_pow_right₀ (by norm_num) (by omega)
    have h2 : (2 : ℤ) ^ (T.bits - 1) ≤ 2 ^ 30 := pow_le_pow_right₀ (by norm_num) (by omega)
    rw [hp, abs_le]
    unfold lo at a1 b1
    unfold hi at a2 b2
    split_ifs at a1 b1 a2 b2 <;> constructor <;> omega
  · have h0 : T.hi ≤ T.promote.hi := by
      unfold promote
      split_ifs with hb
      · have h1 : (2 : ℤ) ^ T.bits ≤ 2 ^ 31 := pow_le_pow_right₀ (by norm_num) (by omega)
        rw [hi_int]
        unfold hi
        rw [hT]
        simp only [Bool.false_eq_true, if_false]
        omega
      · exact le_rfl
    unfold lo at a1 b1
    rw [hT] at a1 b1
    simp only [Bool.false_eq_true, if_false] at a1 b1
    rw [abs_le]
    constructor <;> omega

/-- For `int` it is not: the difference between the sample that leaves and the one that enters overflows. -/
theorem C66_rolling_mean_fails : immRollingMeanInt (K := ℚ) int 1 [2 ^ 31 - 1, -1] = .ub := by decide +kernel

example : ∃ b, immRollingMeanInt (K := ℚ) uint 2 [2 ^ 32 - 1, 0, 7] = .val (b, 7 / 2) := by
  obtain ⟨b, h⟩ := C66_rolling_mean_all (K := ℚ) (T := uint) (Or.inr rfl) (N := 2) (by norm_num) [2 ^ 32 - 1, 0, 7]
    (by decide)
  refine ⟨b, h.trans ?_⟩
  congr 2
  simp [Spec.lastN, Spec.mean]

/-! ## weighted sum and mean -/

/-- **C66.** The weighted sum is exact if, in the common type of sample and weight, all samples, weights, products and partial
sums are values. -/
theorem C66_weighted_sum {S T : IntTy} (ps : List (ℤ × ℤ))
    (hx : ∀ p ∈ ps, (common S T).InR p.1 ∧ (common S T).InR p.2 ∧ (common S T).InR (p.1 * p.2))
    (h : ∀ q, q <+: ps → (common S T).InR (q.map fun p => p.1 * p.2).sum) :
    weightedSumInt S T ps = .val (ps.map fun p => p.1 * p.2).sum :=
  weightedSumInt_exact ps hx h

/-- **C66.** If the common type is unsigned the weighted sum is the residue of the true one, for all streams. -/
theorem C66_weighted_sum_wraps {S T : IntTy} (hu : (common S T).signed = false) (ps : List (ℤ × ℤ)) :
    weightedSumInt S T ps = .val ((ps.map fun p => p.1 * p.2).sum % 2 ^ (common S T).bits) :=
  weightedSumInt_wraps hu ps

/-- The weighted mean is exact under the conditions for both sums. -/
theorem C66_weighted_mean {S T : IntTy} (hT : 0 < T.bits) (ps : List (ℤ × ℤ))
    (hx : ∀ p ∈ ps, (common S T).InR p.1 ∧ (common S T).InR p.2 ∧ (common S T).InR (p.1 * p.2))
    (h : ∀ q, q <+: ps → (common S T).InR (q.map fun p => p.1 * p.2).sum)
    (hw : ∀ q, q <+: ps.map Prod.snd → T.InR q.sum) (h0 : (ps.map Prod.snd).sum ≠ 0) :
    weightedMeanInt (K := K) S T ps
      = .val ((ps.map fun p => (p.1 : K) * (p.2 : K)).sum / (ps.map fun p => (p.2 : K)).sum) := by
  unfold weightedMeanInt
  rw [weightedSumInt_exact ps hx h, Res.val_bind, sumInt_exact hT _ hw, Res.val_bind,
    fdiv_ne (by exact_mod_cast h0), castSum, castSum, List.map_map, List.map_map]
  congr 3
  refine List.map_congr_left fun z _ => ?_
  simp

/-- `accumulator_set<int, stats<tag::weighted_mean>, unsigned>`: the negative sample is converted to `unsigned`, and its mean
with weight one is 4294967295. -/
theorem C66_mixed_weights_fails : weightedMeanInt (K := ℚ) int uint [(-1, 1)] = .val 4294967295 := by decide +kernel

example : weightedMeanInt (K := ℚ) int int [(-1, 1), (2, 4)] = .val (7 / 5) := by
  rw [C66_weighted_mean (by decide) _ _ _ _ (by decide)]
  · norm_num
  · intro p hp
    simp only [List.mem_cons, List.not_mem_nil, or_false] at hp
    rcases hp with rfl | rfl <;> unfold InR <;> decide
  · intro q hq
    have := (List.mem_inits _ _).2 hq
    simp only [List.inits, List.map_cons, List.map_nil, List.mem_cons, List.not_mem_nil, or_false] at this
    rcases this with rfl | rfl | rfl <;> unfold InR <;> decide
  · intro q hq
    have := (List.mem_inits _ _).2 hq
    simp only [List.inits, List.map_cons, List.map_nil, List.mem_cons, List.not_mem_nil, or_false] at this
    rcases this with rfl | rfl | rfl <;> unfold InR <;> decide

end

end Acc
