import Verif.Model.IntEst
import Verif.Props.IntSamples
import Verif.Props.Rolling
import Verif.Props.TailEst
import Verif.Props.WTail
import Verif.Proofs.TailMap

/-!
# C91: variances, windows and tails of integral samples
-/

set_option linter.unusedSectionVars false

namespace Acc

open IntTy

variable {K : Type} [Field K] [LinearOrder K] [IsStrictOrderedRing K]

/-- The samples as numbers of type `double`. -/
def Spec.toReal (xs : List ℤ) : List K := xs.map fun z : ℤ => (z : K)

theorem toReal_ne_nil {xs : List ℤ} (h : xs ≠ []) : (Spec.toReal xs : List K) ≠ [] := by
  simpa [Spec.toReal] using h

theorem lastN_toReal (N : ℕ) (xs : List ℤ) :
    (Spec.lastN N (Spec.toReal xs) : List K) = Spec.toReal (Spec.lastN N xs) := by
  unfold Spec.lastN Spec.toReal
  rw [List.map_drop, List.length_map]

/-! ## variance -/

theorem IntMean.of_eq {T : IntTy} (hT : 0 < T.bits) (kind : IntMean) {xs : List ℤ} (hne : xs ≠ [])
    (h : kind = .lazy → ∀ p, p <+: xs → T.lo ≤ p.sum ∧ p.sum ≤ T.hi) :
    kind.of (K := K) T xs = .val (Spec.mean (Spec.toReal xs)) := by
  have e : Spec.mean (Spec.toReal xs : List K) = (xs.map fun z : ℤ => (z : K)).sum / (xs.length : K) := by
    simp [Spec.mean, Spec.toReal]
  rw [e]
  cases kind with
  | lazy => exact C66_lazy_mean hT xs hne (h rfl)
  | immediate => exact C66_immediate_mean xs hne

theorem varianceIntFrom_eq {T : IntTy} (hT : 0 < T.bits) (kind : IntMean) (done xs : List ℤ)
    (h : kind = .lazy → ∀ p, p <+: done ++ xs → T.lo ≤ p.sum ∧ p.sum ≤ T.hi) (v : Res K) :
    varianceIntFrom T kind done v xs
      = ((Spec.toReal xs).foldl (VarianceSt.push (immMean (0 : K)))
          ⟨(immMean (0 : K)).run (Spec.toReal done), done.length, v⟩).var := by
  induction xs generalizing done v with
  | nil => rfl
  | cons x xs ih =>
    have hpre : done ++ [x] <+: done ++ x :: xs := ⟨xs, by simp⟩
    rw [varianceIntFrom, ih _ (by simpa using h)]
    show _ = (List.foldl _ (VarianceSt.push _ _ (x : K)) (Spec.toReal xs)).var
    congr 2
    simp only [VarianceSt.push]
    have hr : (immMean (0 : K)).push ((immMean (0 : K)).run (Spec.toReal done)) (x : K)
        = (immMean (0 : K)).run (Spec.toReal (done ++ [x])) := by
      simp [MeanProvider.run, Spec.toReal]
    rw [IntMean.of_eq hT kind (by simp) fun hk p hp => h hk p (hp.trans hpre)]
    rw [hr, immMean_correct (0 : K) _ (toReal_ne_nil (by simp)), List.length_append, List.length_singleton]

/-- **C91.** `variance` of integral samples is right whatever the samples, unless the set has the lazy mean; then, if no partial
sum leaves the range of the type. -/
theorem C91_variance {T : IntTy} (hT : 0 < T.bits) (kind : IntMean) {xs : List ℤ} (hne : xs ≠ [])
    (h : kind = .lazy → ∀ p, p <+: xs → T.lo ≤ p.sum ∧ p.sum ≤ T.hi) :
    varianceInt (K := K) T kind xs = .val (Spec.variance (xs.map fun z : ℤ => (z : K))) := by
  rw [varianceInt, varianceIntFrom_eq hT kind [] xs (by simpa using h)]
  have := C06_variance (immMean (0 : K)) (immMean_correct 0) (Spec.toReal xs) (toReal_ne_nil hne)
  have e : VarianceSt.init (immMean (0 : K)) 0 = ⟨(immMean (0 : K)).run (Spec.toReal []), 0, .val 0⟩ := by
    simp [VarianceSt.init, MeanProvider.run, Spec.toReal]
  rw [varianceRun, e] at this
  exact this

/-- **C91.** `lazy_variance` of integral samples is right if the sum of the squares is a value of the type. -/
theorem C91_lazy_variance {T : IntTy} (hT : 0 < T.bits) (kind : IntMean) {xs : List ℤ} (hne : xs ≠ [])
    (hx : ∀ x ∈ xs, T.lo ≤ x ∧ x ≤ T.hi) (h2 : (xs.map fun x => |x| ^ 2).sum ≤ T.hi) :
    lazyVarianceInt (K := K) T kind xs = .val (Spec.variance (xs.map fun z : ℤ => (z : K))) := by
  have hs : ∀ ys : List ℤ, |ys.sum| ≤ (ys.map fun x => |x| ^ 2).sum := by
    intro ys
    induction ys with
    | nil => simp
    | cons y ys ih =>
      simp only [List.sum_cons, List.map_cons]
      refine (abs_add_le _ _).trans (add_le_add ?_ ih)
      rcases eq_or_ne y 0 with rfl | hy
      · simp
      · have := Int.one_le_abs hy
        nlinarith
  have hpre : ∀ p, p <+: xs → T.lo ≤ p.sum ∧ p.sum ≤ T.hi := by
    intro p hp
    obtain ⟨q, rfl⟩ := hp
    refine inR_of_abs ((hs p).trans ?_) fun hsg => List.sum_nonneg fun x hx' => ?_
    · refine le_trans ?_ h2
      rw [List.map_append, List.sum_append]
      have : 0 ≤ (q.map fun x => |x| ^ 2).sum := List.sum_nonneg fun z hz => by
        obtain ⟨y, -, rfl⟩ := List.mem_map.1 hz; positivity
      omega
    · have := (hx x (List.mem_append_left _ hx')).1
      unfold lo at this
      rw [hsg] at this
      exact this
  have hv := C06_lazy_variance (immMean (0 : K)) (immMean_correct 0) (Spec.toReal xs) (toReal_ne_nil hne)
  rw [lazyVarianceRun, immMean_correct (0 : K) _ (toReal_ne_nil hne), momentRun_raw 2 _ (toReal_ne_nil hne)] at hv
  rw [lazyVarianceInt, IntMean.of_eq hT kind hne fun _ => hpre, C66_moment hT xs hne hx h2]
  rw [show (Res.val ((xs.map fun z : ℤ => (z : K) ^ 2).sum / (xs.length : K)) : Res K)
    = .val (Spec.rawMoment 2 (Spec.toReal xs)) by simp [Spec.rawMoment, Spec.toReal, Function.comp_def]]
  exact hv

/-- The two variances are not interchangeable: one sample of 46341, or two of opposite sign, and `lazy_variance` of `int` is
undefined where `variance` is right. -/
theorem C91_variances_differ :
    (lazyVarianceInt (K := ℚ) int .immediate [46341] = .ub ∧ varianceInt (K := ℚ) int .immediate [46341] = .val 0) ∧
    (varianceInt (K := ℚ) int .immediate [2 ^ 31 - 1, 2 ^ 31 - 3] = .val 1 ∧
      varianceInt (K := ℚ) int .lazy [2 ^ 31 - 1, 2 ^ 31 - 3] = .ub) := by
  refine ⟨⟨?_, ?_⟩, ?_, ?_⟩
  · rw [lazyVarianceInt, C66_moment_fails.1]
    decide +kernel
  · decide +kernel
  · decide +kernel
  · decide +kernel

example : lazyVarianceInt (K := ℚ) int .lazy [1, 2, 6] = .val (14 / 3) := by
  rw [C91_lazy_variance (by decide) _ (by simp) (by decide) (by decide)]
  norm_num [Spec.variance, Spec.centralMoment, Spec.mean]

/-! ## rolling moment -/

theorem toReal_nextWin (N : ℕ) (W : List ℤ) (x : ℤ) :
    (Spec.toReal (nextWin N W x) : List K) = nextWin N (Spec.toReal W) (x : K) := by
  unfold nextWin Spec.toReal
  rw [List.length_map]
  split_ifs
  · rw [List.map_tail, List.map_append]; rfl
  · rw [List.map_append]; rfl

theorem rollingMomentIntStep_next {T : IntTy} (M N : ℕ) (W : List ℤ) (x : ℤ)
    (h : ∀ y ∈ W ++ [x], powInt T y M = .val (y ^ M)) :
    rollingMomentIntStep T M (nextRing N W x) ((Spec.toReal W : List K).map (· ^ M)).sum x
      = .val ((Spec.toReal (nextWin N W x) : List K).map (· ^ M)).sum := by
  rw [toReal_nextWin, ← rollingMomentStep_next M N (Spec.toReal W : List K) (x : K)]
  unfold rollingMomentIntStep rollingMomentStep
  rw [nextRing_full, nextRing_full, h x (by simp)]
  have hl : (Spec.toReal W : List K).length = W.length := by simp [Spec.toReal]
  rw [hl]
  by_cases hW : W.length = N
  · obtain ⟨f, t, e⟩ : ∃ f t, W ++ [x] = f :: t := by
      cases W with
      | nil => exact ⟨x, [], rfl⟩
      | cons f t => exact ⟨f, t ++ [x], rfl⟩
    have h1 : (nextRing N W x).front = .val f := by simp [Ring.front, nextRing, e]
    have h2 : (nextRing N (Spec.toReal W : List K) (x : K)).front = .val (f : K) := by
      have : (Spec.toReal W : List K) ++ [(x : K)] = (f : K) :: Spec.toReal t := by
        have := congrArg (List.map fun z : ℤ => (z : K)) e
        simpa [Spec.toReal] using this
      simp [Ring.front, nextRing, this]
    simp only [hW, decide_true, if_true, h1, h2, Res.val_bind, h f (by rw [e]; simp), Res.pure_eq, mpow_eq, Int.cast_pow]
  · simp only [hW, decide_false, Bool.false_eq_true, if_false, Res.val_bind, Res.pure_eq, mpow_eq, Int.cast_pow]

theorem rollingMomentIntRun_eq {T : IntTy} (M N : ℕ) (xs : List ℤ) (h : ∀ y ∈ xs, powInt T y M = .val (y ^ M)) :
    rollingMomentIntRun (K := K) T M N xs
      = .val (⟨N + 1, Spec.lastN (N + 1) xs⟩, ((Spec.toReal (Spec.lastN N xs)).map (· ^ M)).sum) := by
  induction xs using List.reverseRecOn with
  | nil => simp [rollingMomentIntRun, windowInit, Spec.lastN, Spec.toReal]
  | append_singleton xs x ih =>
    have ih := ih fun y hy => h y (by simp [hy])
    unfold rollingMomentIntRun at ih ⊢
    rw [foldlM_res_snoc, ih]
    show (rollingMomentIntStep T M (windowPush ⟨N + 1, Spec.lastN (N + 1) xs⟩ x) _ x).bind _ = _
    rw [windowPush_lastN, rollingMomentIntStep_next, lastN_snoc_succ, lastN_snoc]
    · rfl
    · intro y hy
      refine h y ?_
      rcases List.mem_append.1 hy with hy | hy
      · exact List.mem_append_left _ (List.mem_of_mem_drop hy)
      · exact List.mem_append_right _ hy

theorem rollingCount_lastN' {X : Type} (N : ℕ) (xs : List X) :
    rollingCount (⟨N + 1, Spec.lastN (N + 1) xs⟩ : Ring X) = (Spec.lastN N xs).length := by
  simp only [rollingCount, Ring.full, lastN_length]
  split_ifs with h
  · simp at h; omega
  · simp at h; omega

theorem rollingCount_toReal (N : ℕ) (xs : List ℤ) :
    rollingCount (⟨N + 1, (Spec.toReal (Spec.lastN (N + 1) xs) : List K)⟩ : Ring K) = (Spec.lastN N xs).length := by
  rw [← lastN_toReal, rollingCount_lastN', lastN_toReal]
  simp [Spec.toReal]

theorem powInt_all {T : IntTy} (hT : 0 < T.bits) {M : ℕ} {xs : List ℤ} (hx : ∀ x ∈ xs, T.lo ≤ x ∧ x ≤ T.hi)
    (h : ∀ x ∈ xs, |x| ^ M ≤ T.hi) : ∀ y ∈ xs, powInt T y M = .val (y ^ M) := fun y hy =>
  powInt_exact hT (fun hs => by
    have := (hx y hy).1
    unfold lo at this
    rw [hs] at this
    exact this) M (h y hy)

/-- **C91.** `rolling_moment<M>` is right as long as the `M`-th power of every sample is a value of the type; unlike for
`moment<M>` their sum need not be one, since it is kept in a `double`. -/
theorem C91_rolling_moment {T : IntTy} (hT : 0 < T.bits) (M : ℕ) {N : ℕ} (hN : 0 < N) {xs : List ℤ} (hne : xs ≠ [])
    (hx : ∀ x ∈ xs, T.lo ≤ x ∧ x ≤ T.hi) (h : ∀ x ∈ xs, |x| ^ M ≤ T.hi) :
    rollingMomentInt (K := K) T M N xs = .val (Spec.rawMoment M ((Spec.lastN N xs).map fun z : ℤ => (z : K))) := by
  rw [rollingMomentInt, rollingMomentIntRun_eq M N xs (powInt_all hT hx h), Res.val_bind, rollingCount_lastN', fdiv_ne]
  · simp [Spec.rawMoment, Spec.toReal]
  · refine length_cast_ne ?_
    rw [← List.length_pos_iff, lastN_length]
    have := List.length_pos_iff.mpr hne
    omega

theorem C91_rolling_moment_better :
    momentInt (K := ℚ) int 2 [40000, 40000] = .ub ∧ rollingMomentInt (K := ℚ) int 2 2 [40000, 40000] = .val 1600000000 := by
  constructor
  · have h : ∀ T x, powInt T x 2 = (do let z ← T.mul x x; .val z) := by
      intro T x
      unfold powInt
      have : powInt T x 1 = .val x := by unfold powInt; rfl
      rw [dif_neg (by decide), dif_neg (by decide), show 2 / 2 = 1 from rfl, this]
      rfl
    simp only [momentInt, momentSumInt, List.foldlM_cons, List.foldlM_nil, h]
    decide +kernel
  · rw [C91_rolling_moment (by decide) 2 (by norm_num) (by simp) (by decide) (by decide)]
    norm_num [Spec.rawMoment, Spec.lastN]

/-! ## rolling variance -/

/-- What a rolling variance should return. -/
def Spec.rollingVariance (N : ℕ) (xs : List K) : K :=
  if min xs.length N < 2 then 0 else Spec.sampleVariance (Spec.lastN N xs)

/-- **C91.** `lazy_rolling_variance` is right if every square is a value of the type and the rolling mean in the set is right:
with the immediate one, if no two samples differ by more than the greatest value (always so for unsigned and narrow types), with
the lazy one, if the total of every window, with and without its oldest sample, is a value. -/
theorem C91_lazy_rolling_variance {T : IntTy} (hT : 0 < T.bits) (kind : RollMeanKind) {N : ℕ} (hN : 0 < N) (xs : List ℤ)
    (hx : ∀ x ∈ xs, T.lo ≤ x ∧ x ≤ T.hi) (h2 : ∀ x ∈ xs, |x| ^ 2 ≤ T.hi)
    (hl : kind = .lazy → ∀ p, p <+: xs → (T.lo ≤ (Spec.lastN N p).sum ∧ (Spec.lastN N p).sum ≤ T.hi) ∧
      T.lo ≤ (Spec.lastN (N - 1) p).sum ∧ (Spec.lastN (N - 1) p).sum ≤ T.hi)
    (hi : kind = .immediate → ∀ a ∈ xs, ∀ b ∈ xs, |a - b| ≤ T.promote.hi) :
    lazyRollingVarianceInt (K := K) T kind N xs = .val (Spec.rollingVariance N (xs.map fun z : ℤ => (z : K))) := by
  have hv := C14_lazy kind N hN (Spec.toReal xs : List K)
  change _ = Res.val (Spec.rollingVariance N (Spec.toReal xs)) at hv
  rw [show (xs.map fun z : ℤ => (z : K)) = Spec.toReal xs from rfl, ← hv, rollRun_state kind hN, lazyRollingVarianceInt,
    rollingMomentIntRun_eq 2 N xs (powInt_all hT hx h2), Res.val_bind]
  simp only [rollingCount_lastN', lastN_toReal, rollingCount_toReal, lazyRollingVarianceResult]
  cases kind with
  | lazy =>
    simp only [rollingSumInt_exact hT hN xs (hl rfl), Res.val_bind, RollSt.mean, lazyRollingMeanResult, rollingCount_lastN',
      rollingCount_toReal, rollingMomentResult, Res.pure_eq, castSum]
    split_ifs
    · rfl
    · rfl
  | immediate =>
    simp only [immRollingMeanInt_exact (K := K) hN xs (hi rfl), Res.val_bind, RollSt.mean, rollingMomentResult,
      rollingCount_toReal, Res.pure_eq]
    split_ifs
    · rfl
    · rfl

theorem immRollingVarianceInt_run {T : IntTy} {N : ℕ} (hN : 0 < N) (xs : List ℤ)
    (hi : ∀ a ∈ xs, ∀ b ∈ xs, |a - b| ≤ T.promote.hi) :
    xs.foldlM (RollVarInt.push (K := K) T) ⟨windowInit N, 0, 0, 0⟩
      = .val ⟨⟨N + 1, Spec.lastN (N + 1) xs⟩, Spec.mean (Spec.toReal (Spec.lastN N xs)),
          Spec.mean (Spec.toReal (Spec.lastN N xs)), ssq (Spec.toReal (Spec.lastN N xs))⟩ := by
  induction xs using List.reverseRecOn with
  | nil => simp [windowInit, Spec.lastN, Spec.toReal, Spec.mean, ssq]
  | append_singleton xs x ih =>
    have ih := ih fun a ha b hb => hi a (by simp [ha]) b (by simp [hb])
    rw [foldlM_res_snoc, ih]
    show RollVarInt.push T _ x = _
    unfold RollVarInt.push
    dsimp only
    rw [windowPush_lastN, immRollingMeanIntStep_eq]
    · change (immRollingMeanStep (nextRing N (Spec.toReal (Spec.lastN N xs)) (x : K)) _ _ >>= _) = _
      rw [immRollingMeanStep_next hN, ← toReal_nextWin, Res.val_bind, lastN_snoc_succ, lastN_snoc]
      have hs := rollVar_step_next hN (Spec.toReal (Spec.lastN N xs) : List K) (x : K)
      rw [← toReal_nextWin] at hs
      have hs := congrArg RollVar.ss hs
      simp only [RollVar.step, Res.val_bind, nextRing_full] at hs
      rw [nextRing_full]
      have e : (Spec.toReal (Spec.lastN N xs) : List K).length = (Spec.lastN N xs).length := by simp [Spec.toReal]
      rw [e] at hs
      by_cases hW : (Spec.lastN N xs).length = N
      · obtain ⟨f, t, he⟩ : ∃ f t, Spec.lastN N xs ++ [x] = f :: t := by
          cases Spec.lastN N xs with
          | nil => exact ⟨x, [], rfl⟩
          | cons f t => exact ⟨f, t ++ [x], rfl⟩
        have h1 : (nextRing N (Spec.lastN N xs) x).front = .val f := by simp [Ring.front, nextRing, he]
        have h2 : (nextRing N (Spec.toReal (Spec.lastN N xs) : List K) (x : K)).front = .val (f : K) := by
          have : (Spec.toReal (Spec.lastN N xs) : List K) ++ [(x : K)] = (f : K) :: Spec.toReal t := by
            have := congrArg (List.map fun z : ℤ => (z : K)) he
            simpa [Spec.toReal] using this
          simp [Ring.front, nextRing, this]
        simp only [hW, decide_true, if_true, h1, h2, Res.val_bind, Res.pure_eq, Res.val.injEq] at hs ⊢
        rw [hs]
        simp [nextRing, nextWin, hW]
      · simp only [hW, decide_false, Bool.false_eq_true, if_false, Res.pure_eq, Res.val.injEq] at hs ⊢
        rw [hs]
        simp [nextRing, nextWin, hW]
    · intro a ha
      exact hi a (List.mem_append_left _ (List.mem_of_mem_drop ha)) x (by simp)

/-- **C91.** `immediate_rolling_variance` squares `double`s and needs only that no two samples differ by more than the
greatest value. -/
theorem C91_immediate_rolling_variance {T : IntTy} {N : ℕ} (hN : 0 < N) (xs : List ℤ)
    (hi : ∀ a ∈ xs, ∀ b ∈ xs, |a - b| ≤ T.promote.hi) :
    immRollingVarianceInt (K := K) T N xs = .val (Spec.rollingVariance N (xs.map fun z : ℤ => (z : K))) := by
  have hv := C14_immediate .immediate N hN (Spec.toReal xs : List K)
  change _ = Res.val (Spec.rollingVariance N (Spec.toReal xs)) at hv
  rw [show (xs.map fun z : ℤ => (z : K)) = Spec.toReal xs from rfl, ← hv, rollRun_state .immediate hN,
    immRollingVarianceInt, immRollingVarianceInt_run hN xs hi, Res.val_bind]
  simp only [RollVar.result, rollingCount_lastN', lastN_toReal, rollingCount_toReal, Res.val_bind]

/-- Where the squares leave the type `lazy_rolling_variance` is undefined (`int`) or wrong (`unsigned`), and
`immediate_rolling_variance` right. -/
theorem C91_rolling_variances_differ :
    (lazyRollingVarianceInt (K := ℚ) int .immediate 2 [46341, 46343] = .ub ∧
      immRollingVarianceInt (K := ℚ) int 2 [46341, 46343] = .val 2) ∧
    lazyRollingVarianceInt (K := ℚ) uint .immediate 2 [65536, 65538] = .val (-8589934590) ∧
      immRollingVarianceInt (K := ℚ) uint 2 [65536, 65538] = .val 2 := by
  have h : ∀ T x, powInt T x 2 = (do let z ← T.mul x x; .val z) := by
    intro T x
    unfold powInt
    have : powInt T x 1 = .val x := by unfold powInt; rfl
    rw [dif_neg (by decide), dif_neg (by decide), show 2 / 2 = 1 from rfl, this]
    rfl
  refine ⟨⟨?_, by decide +kernel⟩, ?_, by decide +kernel⟩ <;>
  · simp only [lazyRollingVarianceInt, rollingMomentIntRun, rollingMomentIntStep, h]
    decide +kernel

example : lazyRollingVarianceInt (K := ℚ) int .lazy 2 [5, 1, 3] = .val 2 := by
  rw [C91_lazy_rolling_variance (by decide) _ (by norm_num) _ (by decide) (by decide)]
  · norm_num [Spec.rollingVariance, Spec.lastN, Spec.sampleVariance, Spec.mean]
  · intro _ p hp
    have := (List.mem_inits _ _).2 hp
    simp only [List.inits, List.map_cons, List.map_nil, List.mem_cons, List.not_mem_nil, or_false] at this
    rcases this with rfl | rfl | rfl | rfl <;> decide
  · intro h; cases h

/-! ## tails -/

section Tail

variable [FloorRing K] {V : Type}

/-- **C91.** `tail_quantile` of integral samples: the `n`-th most extreme sample, and an exception if the cache is too short
(there is no NaN to return). -/
theorem C91_tail_quantile (H : HeapImpl ℕ) (side : Side) {k : ℕ} (hk : 1 ≤ k) (x0 : ℤ) (v0 : V)
    (h : List (Op (ℤ × V) Unit)) {p : K} {n : ℕ} (hn : Spec.tailCount side (pushes h).length p = n) :
    (1 ≤ n → n < min k (pushes h).length → ∃ x, tailQuantileInt H side k x0 v0 h p = .val x ∧
      (Spec.byExtremity side ((pushes h).map Prod.fst))[n - 1]? = some x) ∧
    (min k (pushes h).length ≤ n → tailQuantileInt H side k x0 v0 h p = .thrown) := by
  obtain ⟨s, out, hr, ht, _, h3, _⟩ := extract_both H side hk x0 v0 h
  have hl := extremes_length side k ((pushes h).map Prod.fst)
  rw [← h3] at hl
  have hl' : (out.map Prod.fst).length = min k (pushes h).length := by rw [hl]; simp
  constructor
  · intro h1 h2
    have hlt : n - 1 < (out.map Prod.fst).length := by omega
    refine ⟨(out.map Prod.fst)[n - 1], ?_, ?_⟩
    · simp only [tailQuantileInt, hr, Res.val_bind, tailN_eq hn, ht, tailQuantileResult]
      rw [if_pos (by omega), if_neg (by omega), List.getElem?_eq_getElem hlt]
    · rw [← List.getElem?_eq_getElem hlt, h3, Spec.extremes, List.getElem?_take, if_pos (by omega)]
  · intro h2
    simp only [tailQuantileInt, hr, Res.val_bind, tailN_eq hn, ht, tailQuantileResult]
    rw [if_neg (by omega)]
    rfl

theorem tailMeanInt_eq (T : IntTy) (H : HeapImpl ℕ) (side : Side) {k : ℕ} (hk : 1 ≤ k) (x0 : ℤ) (v0 : V)
    (h : List (Op (ℤ × V) Unit)) {p : K} {n : ℕ} (hn : Spec.tailCount side (pushes h).length p = n)
    (h2 : n ≤ min k (pushes h).length) :
    tailMeanInt T H side k x0 v0 h p
      = (sumInt T (Spec.extremes side n ((pushes h).map Prod.fst)) >>= fun s => fdiv (s : K) (n : K)) := by
  obtain ⟨s, out, hr, ht, _, h3, _⟩ := extract_both H side hk x0 v0 h
  have hl := extremes_length side k ((pushes h).map Prod.fst)
  rw [← h3] at hl
  have hl' : (out.map Prod.fst).length = min k (pushes h).length := by rw [hl]; simp
  simp only [tailMeanInt, hr, Res.val_bind, tailN_eq hn, ht]
  rw [if_pos (by omega), h3, extremes_take side (by omega)]

/-- **C91.** `non_coherent_tail_mean` is the mean of the `n` most extreme samples, not truncated to an integer, if the totals
of the most extreme `1, ..., n` samples are values of the type. -/
theorem C91_tail_mean {T : IntTy} (hT : 0 < T.bits) (H : HeapImpl ℕ) (side : Side) {k : ℕ} (hk : 1 ≤ k) (x0 : ℤ) (v0 : V)
    (h : List (Op (ℤ × V) Unit)) {p : K} {n : ℕ} (hn : Spec.tailCount side (pushes h).length p = n) (h1 : 1 ≤ n)
    (h2 : n ≤ min k (pushes h).length)
    (hs : ∀ m ≤ n, T.lo ≤ (Spec.extremes side m ((pushes h).map Prod.fst)).sum ∧
      (Spec.extremes side m ((pushes h).map Prod.fst)).sum ≤ T.hi) :
    tailMeanInt T H side k x0 v0 h p
      = .val (Spec.mean ((Spec.extremes side n ((pushes h).map Prod.fst)).map fun z : ℤ => (z : K))) := by
  have hl : (Spec.extremes side n ((pushes h).map Prod.fst)).length = n := by
    rw [extremes_length, List.length_map]; omega
  rw [tailMeanInt_eq T H side hk x0 v0 h hn h2, sumInt_exact hT, Res.val_bind, fdiv_ne]
  · rw [Spec.mean, List.length_map, hl, castSum]
  · exact_mod_cast (by omega : n ≠ 0)
  · intro q hq
    have hq' := List.prefix_iff_eq_take.1 hq
    have : q.length ≤ n := by rw [← hl]; exact hq.length_le
    rw [extremes_take side this] at hq'
    rw [hq']
    exact hs _ this

/-- **C91.** Otherwise it is undefined for the signed types of 32 or more bits, wherever the other samples lie. -/
theorem C91_tail_mean_overflow {T : IntTy} (hb : 32 ≤ T.bits) (hsg : T.signed = true) (H : HeapImpl ℕ) (side : Side) {k : ℕ}
    (hk : 1 ≤ k) (x0 : ℤ) (v0 : V) (h : List (Op (ℤ × V) Unit)) {p : K} {n : ℕ}
    (hn : Spec.tailCount side (pushes h).length p = n) (h2 : n ≤ min k (pushes h).length)
    (hs : ∃ m ≤ n, ¬ (T.lo ≤ (Spec.extremes side m ((pushes h).map Prod.fst)).sum ∧
      (Spec.extremes side m ((pushes h).map Prod.fst)).sum ≤ T.hi)) :
    tailMeanInt T H side k x0 v0 h p = .ub := by
  obtain ⟨m, hm, hs⟩ := hs
  rw [tailMeanInt_eq T H side hk x0 v0 h hn h2, sumInt_overflow hb hsg]
  · rfl
  · refine ⟨_, List.take_prefix m _, ?_⟩
    rwa [extremes_take side hm]

/-- Two large samples suffice: the quantile is right and the mean beyond it undefined. -/
theorem C91_tail_mean_fails :
    tailMeanInt (K := ℚ) int HeapImpl.simple .right 3 0 () [.push (2147483647, ()), .push (5, ()), .push (2147483647, ())] (1/3)
      = .ub ∧
    tailQuantileInt (K := ℚ) HeapImpl.simple .right 3 0 ()
      [.push (2147483647, ()), .push (5, ()), .push (2147483647, ())] (1/3) = .val 2147483647 := by
  decide +kernel

example : tailMeanInt (K := ℚ) int HeapImpl.simple .left 3 0 ()
    [.push (2, ()), .push (5, ()), .query (), .push (1, ())] (2/3) = .val (3/2) := by
  rw [C91_tail_mean (n := 2) (by decide) _ _ (by norm_num) _ _ _ (by norm_num [Spec.tailCount, pushes]) (by norm_num)
    (by decide) (by decide)]
  decide +kernel

/-! ## weighted tails -/

theorem wtailLoopInt_eq {T : IntTy} (hT : 0 < T.bits) (ex : Res (ℕ × ℤ)) (ex' : Res (ℕ × K)) (th : K) (n : ℕ) (sum : ℤ)
    (ws : List ℤ) (h0 : 0 ≤ sum) (hw : ∀ w ∈ ws, 0 ≤ w) (hs : sum + ws.sum ≤ T.hi) :
    (∃ m s, wtailLoopInt T ex th n sum ws = .val (m, s) ∧ m ≤ n + ws.length ∧
      wtailLoop ex' th n (sum : K) (ws.map fun z : ℤ => (z : K)) = .val (m, (s : K))) ∨
    (wtailLoopInt T ex th n sum ws = ex ∧ wtailLoop ex' th n (sum : K) (ws.map fun z : ℤ => (z : K)) = ex') := by
  induction ws generalizing n sum with
  | nil =>
    simp only [wtailLoopInt, wtailLoop, List.map_nil]
    by_cases c : (sum : K) < th
    · right; simp [c]
    · left; exact ⟨n, sum, by simp [c]⟩
  | cons w ws ih =>
    simp only [wtailLoopInt, wtailLoop, List.map_cons]
    by_cases c : (sum : K) < th
    · have hw0 := hw w (by simp)
      have hws : 0 ≤ ws.sum := List.sum_nonneg fun y hy => hw y (by simp [hy])
      rw [List.sum_cons] at hs
      rw [if_pos c, if_pos c, add_inR hT, Res.val_bind]
      · have := ih (n + 1) (sum + w) (by omega) (fun y hy => hw y (by simp [hy])) (by omega)
        rw [Int.cast_add] at this
        rcases this with ⟨m, s, a, b, c⟩ | a
        · exact .inl ⟨m, s, a, by simp only [List.length_cons]; omega, c⟩
        · exact .inr a
      · refine inR_of_abs ?_ fun _ => by omega
        rw [abs_of_nonneg (by omega)]; omega
    · left
      rw [if_neg c, if_neg c]
      exact ⟨n, sum, rfl, by omega, rfl⟩

theorem wtailThresholdInt_eq {T : IntTy} (hT : 0 < T.bits) (side : Side) (ws : List ℤ) (p : K) (hw : ∀ w ∈ ws, 0 ≤ w)
    (hs : ws.sum ≤ T.hi) :
    wtailThresholdInt T side ws p = .val (wtailThreshold side (ws.map fun z : ℤ => (z : K)) p) := by
  unfold wtailThresholdInt
  rw [sumInt_exact hT, Res.val_bind, wtailThreshold_sum, castSum]
  · rfl
  · rintro q ⟨r, rfl⟩
    rw [List.sum_append] at hs
    have h1 : 0 ≤ q.sum := List.sum_nonneg fun y hy => hw y (by simp [hy])
    have h2 : 0 ≤ r.sum := List.sum_nonneg fun y hy => hw y (by simp [hy])
    refine inR_of_abs ?_ fun _ => h1
    rw [abs_of_nonneg h1]; omega

/-- The history with samples and weights as `double`s. -/
def Spec.toRealPairs (h : List (Op (ℤ × ℤ) Unit)) : List (Op (K × K) Unit) :=
  Spec.mapPairs (fun z : ℤ => (z : K)) (fun z : ℤ => (z : K)) h

theorem wtail_toReal (H : HeapImpl ℕ) (side : Side) {k : ℕ} (hk : 1 ≤ k) (x0 v0 : ℤ) (h : List (Op (ℤ × ℤ) Unit)) (p : K)
    (hasNaN : Bool) :
    ∃ (s : TailSt ℤ ℤ) (out D : List (ℤ × ℤ)), tailRun H side k x0 v0 h = .val s ∧
      tailResult H side s = .val (out.map Prod.fst) ∧ tailVariateResult H side s = .val (out.map Prod.snd) ∧
      (out ++ D).Perm (pushes h) ∧
      wtailQuantile H side hasNaN id k (x0 : K) (v0 : K) (Spec.toRealPairs h) p
        = wtailQuantileResult hasNaN (wtailThreshold side (((pushes h).map Prod.snd).map fun z : ℤ => (z : K)) p)
            ((out.map Prod.fst).map fun z : ℤ => (z : K)) ((out.map Prod.snd).map fun z : ℤ => (z : K)) ∧
      wtailMean H side hasNaN id k (x0 : K) (v0 : K) (Spec.toRealPairs h) p
        = wtailMeanResult hasNaN (wtailThreshold side (((pushes h).map Prod.snd).map fun z : ℤ => (z : K)) p)
            ((out.map Prod.fst).map fun z : ℤ => (z : K)) ((out.map Prod.snd).map fun z : ℤ => (z : K)) := by
  obtain ⟨s, out, hr, ht, hv, h3, D, hD, _⟩ := extract_both H side hk x0 v0 h
  have hf : ∀ a b : ℤ, tailPred side ((a : ℤ) : K) (b : K) = tailPred side a b := by
    intro a b
    cases side <;> simp [tailPred]
  have hr' := tailRun_map (side := side) (side' := side) hf (fun z : ℤ => (z : K)) H k x0 v0 h
  have ht' := tailResult_map (side := side) (side' := side) hf (fun z : ℤ => (z : K)) H s
  have hv' := tailVariateResult_map (side := side) (side' := side) hf (fun z : ℤ => (z : K)) H s
  rw [hr] at hr'
  rw [ht] at ht'
  rw [hv] at hv'
  change _ = Res.val _ at hr'
  change _ = Res.val _ at ht'
  change _ = Res.val _ at hv'
  refine ⟨s, out, D, hr, ht, hv, hD, ?_, ?_⟩
  · simp only [wtailQuantile, Spec.toRealPairs, hr', Res.val_bind, ht', hv', pushes_mapPairs, List.map_map, id_eq, List.map_id]
    rfl
  · simp only [wtailMean, Spec.toRealPairs, hr', Res.val_bind, ht', hv', pushes_mapPairs, List.map_map, id_eq, List.map_id]
    rfl

/-- **C91.** `weighted_tail_quantile` of integral samples and weights: what it is for `double`s (C37), as long as the weights
are not negative and their sum a value of the type; exhausting the cache throws. -/
theorem C91_weighted_tail_quantile {T : IntTy} (hT : 0 < T.bits) (H : HeapImpl ℕ) (side : Side) {k : ℕ} (hk : 1 ≤ k)
    (x0 v0 : ℤ) (h : List (Op (ℤ × ℤ) Unit)) (p : K) (hw : ∀ q ∈ pushes h, 0 ≤ q.2)
    (hs : ((pushes h).map Prod.snd).sum ≤ T.hi) :
    wtailQuantile H side false id k (x0 : K) (v0 : K) (Spec.toRealPairs h) p
      = (wtailQuantileInt T H side k x0 v0 h p >>= fun z => Res.val (z : K)) := by
  obtain ⟨s, out, D, hr, ht, hv, hD, hq, -⟩ := wtail_toReal (K := K) H side hk x0 v0 h p false
  have hwo : ∀ w ∈ out.map Prod.snd, 0 ≤ w := by
    intro w hw'
    obtain ⟨q, hq, rfl⟩ := List.mem_map.1 hw'
    exact hw q (hD.mem_iff.1 (List.mem_append_left _ hq))
  have hso : (out.map Prod.snd).sum ≤ T.hi := by
    have e := (hD.map Prod.snd).sum_eq
    rw [List.map_append, List.sum_append] at e
    have : 0 ≤ (D.map Prod.snd).sum := List.sum_nonneg fun w hw' => by
      obtain ⟨q, hq, rfl⟩ := List.mem_map.1 hw'
      exact hw q (hD.mem_iff.1 (List.mem_append_right _ hq))
    omega
  rw [hq, wtailQuantileInt, hr, Res.val_bind, ht, Res.val_bind, hv, Res.val_bind, wtailThresholdInt_eq hT side _ p _ hs,
    Res.val_bind]
  · unfold wtailQuantileResult
    have := wtailLoopInt_eq hT .thrown (nanOrThrow false)
      (wtailThreshold side (((pushes h).map Prod.snd).map fun z : ℤ => (z : K)) p) 0 0 (out.map Prod.snd) le_rfl hwo
      (by simpa using hso)
    rw [Int.cast_zero] at this
    rcases this with ⟨m, t, a, -, b⟩ | ⟨a, b⟩
    · rw [a, b, Res.val_bind, Res.val_bind]
      dsimp only
      by_cases c : m = 0
      · rw [if_pos c, if_pos c]; rfl
      · rw [if_neg c, if_neg c, List.getElem?_map]
        cases (out.map Prod.fst)[m - 1]? <;> rfl
    · rw [a, b]; rfl
  · intro w hw'
    obtain ⟨q, hq, rfl⟩ := List.mem_map.1 hw'
    exact hw q hq

/-- **C91.** `non_coherent_weighted_tail_mean` of integral samples and weights: what it is for `double`s (C37), if the weights
are not negative, their sum a value of their type, and samples, weights and the total of the `|x| * w` values of the type of the
product. -/
theorem C91_weighted_tail_mean {S T : IntTy} (hT : 0 < T.bits) (H : HeapImpl ℕ) (side : Side) {k : ℕ} (hk : 1 ≤ k)
    (x0 v0 : ℤ) (h : List (Op (ℤ × ℤ) Unit)) (p : K) (hw : ∀ q ∈ pushes h, 0 ≤ q.2 ∧ q.2 ≤ (common S T).hi)
    (hs : ((pushes h).map Prod.snd).sum ≤ T.hi)
    (hx : ∀ q ∈ pushes h, (common S T).lo ≤ q.1 ∧ q.1 ≤ (common S T).hi)
    (hp : ((pushes h).map fun q => |q.1| * q.2).sum ≤ (common S T).hi) :
    wtailMeanInt (K := K) S T H side k x0 v0 h p
      = wtailMean H side true id k (x0 : K) (v0 : K) (Spec.toRealPairs h) p := by
  obtain ⟨s, out, D, hr, ht, hv, hD, -, hm⟩ := wtail_toReal (K := K) H side hk x0 v0 h p true
  have hmem : ∀ q ∈ out, q ∈ pushes h := fun q hq => hD.mem_iff.1 (List.mem_append_left _ hq)
  have hwo : ∀ w ∈ out.map Prod.snd, 0 ≤ w := by
    intro w hw'
    obtain ⟨q, hq, rfl⟩ := List.mem_map.1 hw'
    exact (hw q (hmem q hq)).1
  have hso : (out.map Prod.snd).sum ≤ T.hi := by
    have e := (hD.map Prod.snd).sum_eq
    rw [List.map_append, List.sum_append] at e
    have : 0 ≤ (D.map Prod.snd).sum := List.sum_nonneg fun w hw' => by
      obtain ⟨q, hq, rfl⟩ := List.mem_map.1 hw'
      exact (hw q (hD.mem_iff.1 (List.mem_append_right _ hq))).1
    omega
  have hpn : ∀ q ∈ pushes h, 0 ≤ |q.1| * q.2 := fun q hq => mul_nonneg (abs_nonneg _) (hw q hq).1
  have hpo : (out.map fun q => |q.1| * q.2).sum ≤ (common S T).hi := by
    have e := (hD.map fun q => |q.1| * q.2).sum_eq
    rw [List.map_append, List.sum_append] at e
    have : 0 ≤ (D.map fun q => |q.1| * q.2).sum := List.sum_nonneg fun w hw' => by
      obtain ⟨q, hq, rfl⟩ := List.mem_map.1 hw'
      exact hpn q (hD.mem_iff.1 (List.mem_append_right _ hq))
    omega
  have hsg : (common S T).signed = false → ∀ q ∈ pushes h, 0 ≤ q.1 := by
    intro hsg q hq
    have := (hx q hq).1
    unfold lo at this
    rw [hsg] at this
    exact this
  -- every sum over a part of the cache is a value
  have key : ∀ l : List (ℤ × ℤ), l <+: out → (common S T).InR (l.map fun q => q.1 * q.2).sum := by
    rintro l ⟨r, rfl⟩
    have hl : ∀ q ∈ l, q ∈ pushes h := fun q hq => hmem q (by simp [hq])
    have hr0 : 0 ≤ (r.map fun q => |q.1| * q.2).sum := List.sum_nonneg fun w hw' => by
      obtain ⟨q, hq, rfl⟩ := List.mem_map.1 hw'
      exact hpn q (hmem q (by simp [hq]))
    rw [List.map_append, List.sum_append] at hpo
    have hab : |(l.map fun q => q.1 * q.2).sum| ≤ (l.map fun q => |q.1| * q.2).sum := by
      clear hpo hso hwo hv ht hD hmem hm
      induction l with
      | nil => simp
      | cons q l ih =>
        simp only [List.map_cons, List.sum_cons]
        refine (abs_add_le _ _).trans (add_le_add ?_ (ih fun q hq => hl q (by simp [hq])))
        rw [abs_mul, abs_of_nonneg (hw q (hl q (by simp))).1]
    refine inR_of_abs (by omega) fun hsg' => List.sum_nonneg fun w hw' => ?_
    obtain ⟨q, hq, rfl⟩ := List.mem_map.1 hw'
    exact mul_nonneg (hsg hsg' q (hl q hq)) (hw q (hl q hq)).1
  rw [hm, wtailMeanInt, hr, Res.val_bind, ht, Res.val_bind, hv, Res.val_bind, wtailThresholdInt_eq hT side _ p _ hs,
    Res.val_bind]
  · unfold wtailMeanResult
    have := wtailLoopInt_eq hT .nonfinite (nanOrThrow true)
      (wtailThreshold side (((pushes h).map Prod.snd).map fun z : ℤ => (z : K)) p) 0 0 (out.map Prod.snd) le_rfl hwo
      (by simpa using hso)
    rw [Int.cast_zero] at this
    rcases this with ⟨m, t, a, hml, b⟩ | ⟨a, b⟩
    · rw [a, b, Res.val_bind, Res.val_bind]
      dsimp only
      have hz : (out.map Prod.fst).zip (out.map Prod.snd) = out := by
        rw [List.zip_map']; simp
      have hip := innerProduct_eq (0 : K) (n := m) (out.map fun q => ((q.1 : K), (q.2 : K))) (by simpa using hml)
      simp only [List.map_map] at hip ⊢
      rw [hz, weightedSumInt_exact, Res.val_bind]
      · refine Eq.trans ?_ (congrArg (· >>= fun s => fdiv s (t : K)) hip).symm
        rw [Res.val_bind, castSum, zero_add, List.map_map, ← List.map_take, List.map_map]
        congr 3
        funext q
        simp [mul_comm]
      · intro q hq
        have hq' := hmem q (List.mem_of_mem_take hq)
        refine ⟨hx q hq', ⟨?_, (hw q hq').2⟩, ?_⟩
        · have := (hw q hq').1
          have : (common S T).lo ≤ 0 := by unfold lo; split_ifs <;> simp
          have := (hw q hq').1
          omega
        · refine inR_of_abs ?_ fun hsg' => mul_nonneg (hsg hsg' q hq') (hw q hq').1
          rw [abs_mul, abs_of_nonneg (hw q hq').1]
          refine le_trans ?_ hpo
          exact List.single_le_sum (fun w hw' => by
            obtain ⟨r, hr, rfl⟩ := List.mem_map.1 hw'
            exact hpn r (hmem r hr)) _ (List.mem_map.2 ⟨q, List.mem_of_mem_take hq, rfl⟩)
      · exact fun q hq => key q (hq.trans (List.take_prefix _ _))
    · rw [a, b]; rfl
  · intro w hw'
    obtain ⟨q, hq, rfl⟩ := List.mem_map.1 hw'
    exact (hw q hq).1

/-- The bounds are needed: weights of type `unsigned` whose sum wraps give the wrong quantile, and a product outside of the type
makes the mean undefined. -/
theorem C91_weighted_tail_fails :
    wtailQuantileInt (K := ℚ) uint HeapImpl.simple .left 3 0 0 [.push (1, 1), .push (2, 4294967295), .push (3, 2)] (1/2) = .val 1 ∧
    wtailQuantile (K := ℚ) HeapImpl.simple .left false id 3 0 0 [.push (1, 1), .push (2, 4294967295), .push (3, 2)] (1/2)
      = .val 2 ∧
    wtailMeanInt (K := ℚ) int int HeapImpl.simple .left 2 0 0 [.push (65536, 32768), .push (65537, 1)] (1/2) = .ub := by
  decide +kernel

/-- Negative samples with weights of an unsigned type: the product is computed in the unsigned type. -/
theorem C91_weighted_tail_mixed :
    wtailMeanInt (K := ℚ) int uint HeapImpl.simple .left 2 0 0 [.push (-1, 1), .push (7, 1)] (1/2) = .val 4294967295 := by
  decide +kernel

example : wtailMeanInt (K := ℚ) int int HeapImpl.simple .left 2 0 0 [.push (-1, 2), .push (7, 2)] (3/4) = .val 3 ∧
    wtailQuantileInt (K := ℚ) int HeapImpl.simple .left 2 0 0 [.push (-1, 2), .push (7, 2)] (1/4) = .val (-1) := by
  decide +kernel

example : wtailMeanInt (K := ℚ) int int HeapImpl.simple .left 2 0 0 [.push (-1, 2), .push (7, 2)] (3/4)
    = wtailMean HeapImpl.simple .left true id 2 ((0 : ℤ) : ℚ) ((0 : ℤ) : ℚ)
        (Spec.toRealPairs [.push (-1, 2), .push (7, 2)]) (3/4) :=
  C91_weighted_tail_mean (S := int) (T := int) (by decide) _ _ (by norm_num) _ _ _ _ (by decide) (by decide) (by decide) (by decide)

end Tail

end Acc
