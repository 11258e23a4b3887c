import Verif.Props.RoundWhole
import Verif.Props.RoundWPsq

/-!
# C102: a constant signal in floating point

What the statistics say when every sample is the same number.
-/

set_option linter.unusedSectionVars false

namespace Acc

variable {K : Type} [Field K] [LinearOrder K] [IsStrictOrderedRing K] {R : Rounding K} {B : ℕ}

theorem Fl.sub_self' (c : Fl R) : c - c = 0 := Fl.ext (by rw [Fl.val_sub, _root_.sub_self, R.zero]; rfl)
theorem Fl.zero_mul' (c : Fl R) : 0 * c = 0 := Fl.ext (by rw [Fl.val_mul, Fl.val_zero, zero_mul, R.zero])
theorem Fl.add_zero' (c : Fl R) : c + 0 = c := Fl.ext (by rw [Fl.val_add, Fl.val_zero, add_zero, Fl.rd_val])
theorem Fl.zero_add' (c : Fl R) : 0 + c = c := Fl.ext (by rw [Fl.val_add, Fl.val_zero, zero_add, Fl.rd_val])
theorem Fl.sub_zero' (c : Fl R) : c - 0 = c := Fl.ext (by rw [Fl.val_sub, Fl.val_zero, sub_zero, Fl.rd_val])

theorem Fl.zero_fdiv {c : Fl R} (h : c ≠ 0) : fdiv 0 c = .val 0 := by
  unfold fdiv
  rw [if_neg h]
  exact congrArg _ (Fl.ext (by show R.rd (0 / c.val) = _; rw [zero_div, R.zero]; rfl))

theorem Fl.fdiv_one' (c : Fl R) : fdiv c 1 = .val c := by
  unfold fdiv
  rw [if_neg (by rw [Fl.eq_zero_iff, Fl.val_one]; exact one_ne_zero)]
  exact congrArg _ (Fl.ext (by rw [Fl.val_div, Fl.val_one, div_one, Fl.rd_val]))

theorem Fl.nat_ne (hB : R.Counts B) {k : ℕ} (h0 : 0 < k) (h : k ≤ B) : ((k : ℕ) : Fl R) ≠ 0 := by
  rw [Ne, Fl.eq_zero_iff, Fl.val_natCast, hB k h]
  exact_mod_cast h0.ne'

theorem Fl.nat_pred (hB : R.Counts B) {k : ℕ} (h0 : 0 < k) (h : k ≤ B) : ((k : ℕ) : Fl R) - 1 = ((k - 1 : ℕ) : Fl R) := by
  apply Fl.ext
  rw [Fl.val_sub, Fl.val_natCast, Fl.val_natCast, hB k h, Fl.val_one]
  congr 1
  rw [Nat.cast_sub h0, Nat.cast_one]

/-! ## The recursive variance -/

/-- **C102** `variance` over any mean: as long as the mean of the constant signal is the constant, the variance is
exactly zero. -/
theorem C102_variance (hB : R.Counts B) (P : MeanProvider (Fl R) (Fl R)) (c : Fl R) {n : ℕ} (hn : n ≤ B)
    (hP : ∀ k, 0 < k → k ≤ n → P.read (P.run (List.replicate k c)) = .val c) :
    varianceRun P 0 (List.replicate n c) = .val 0 := by
  have key : ∀ k ≤ n, (List.replicate k c).foldl (VarianceSt.push P) (VarianceSt.init P 0)
      = ⟨P.run (List.replicate k c), k, .val 0⟩ := by
    intro k
    induction k with
    | zero =>
      intro _
      show VarianceSt.mk P.init 0 (fdiv 0 1) = _
      rw [Fl.fdiv_one']; rfl
    | succ k ih =>
      intro hk
      have hrun : P.run (List.replicate (k + 1) c) = P.push (P.run (List.replicate k c)) c := by
        unfold MeanProvider.run
        rw [List.replicate_succ', List.foldl_append]; rfl
      rw [List.replicate_succ', List.foldl_append, ih (by omega), ← List.replicate_succ']
      show VarianceSt.push P _ c = _
      unfold VarianceSt.push
      simp only
      rw [← hrun, hP (k + 1) (by omega) hk]
      congr 1
      unfold varianceStep
      by_cases h1 : k + 1 > 1
      · rw [if_pos h1]
        simp only [Res.val_bind]
        rw [Fl.sub_self', Fl.zero_mul', Fl.zero_mul', Fl.zero_fdiv (Fl.nat_ne hB (by omega) (by omega)), Res.val_bind,
          Fl.nat_pred hB (by omega) (by omega), Fl.zero_fdiv (Fl.nat_ne hB (by omega) (by omega)), Res.val_bind,
          Fl.add_zero']
        rfl
      · rw [if_neg h1]
  unfold varianceRun
  rw [key n le_rfl]

/-! ## Whole numbers -/

theorem replicate_natAbs_sum (z : ℤ) (n N : ℕ) :
    ((List.replicate n z).map fun z => z.natAbs ^ N).sum = n * z.natAbs ^ N := by simp

theorem C102_lazy_mean_whole (hB : R.Counts B) (z : ℤ) {n : ℕ} (h0 : 0 < n) (hn : n ≤ B) (h : n * z.natAbs ≤ B) :
    (lazyMean 0).read ((lazyMean 0).run (List.replicate n (Fl.whole R z))) = .val (Fl.whole R z) := by
  have := C101_mean_whole hB (List.replicate n z) (by simp; omega) (by simpa using hn) (by simpa using h) z
    (by simp [mul_comm])
  rw [List.map_replicate] at this
  cases hr : (lazyMean (0 : Fl R)).read ((lazyMean 0).run (List.replicate n (Fl.whole R z))) with
  | val m =>
    rw [hr] at this
    change Res.val m.val = _ at this
    refine congrArg _ (Fl.ext ?_)
    rw [Res.val.inj this, whole_val hB ((Nat.le_mul_of_pos_left _ h0).trans h)]
  | _ => rw [hr] at this; cases this

theorem C102_imm_mean_whole (hB : R.Counts B) (z : ℤ) {n : ℕ} (h0 : 0 < n) (hn : n ≤ B) (h : n * z.natAbs ≤ B) :
    (immMean 0).read ((immMean 0).run (List.replicate n (Fl.whole R z))) = .val (Fl.whole R z) := by
  have hz : z.natAbs ≤ B := (Nat.le_mul_of_pos_left _ h0).trans h
  have key : ∀ k, 0 < k → k ≤ n → (immMean (0 : Fl R)).run (List.replicate k (Fl.whole R z)) = ⟨k, .val (Fl.whole R z)⟩ := by
    have step : ∀ (k : ℕ) (y : ℤ), k + 1 ≤ n → (k = 0 → y = 0) → (0 < k → y = z) →
        immMeanStep (k + 1) (.val (Fl.whole R y)) (Fl.whole R z) = .val (Fl.whole R z) := by
      intro k y hk hy0 hy1
      have hkz : (k + 1) * z.natAbs ≤ B := (Nat.mul_le_mul_right _ hk).trans h
      have hyz : y * k = z * k := by
        rcases Nat.eq_zero_or_pos k with e | e
        · subst e; simp
        · rw [hy1 e]
      have hyB : y.natAbs ≤ B := by
        rcases Nat.eq_zero_or_pos k with e | e
        · rw [hy0 e]; simp
        · rw [hy1 e]; exact hz
      unfold immMeanStep
      rw [Res.val_bind, Fl.nat_pred hB (by omega) (by omega), Nat.add_sub_cancel, whole_nat k, whole_nat (k + 1),
        whole_mul hB hyB (by simp; omega), hyz, whole_add hB _ hz]
      · have e : z * (k : ℤ) + z = z * ((k + 1 : ℕ) : ℤ) := by push_cast; ring
        rw [e, whole_fdiv hB]
        · refine congrArg _ (Fl.ext ?_)
          rw [Fl.val_ofK, whole_val hB hz]
          have : (((k + 1 : ℕ) : ℤ) : K) ≠ 0 := by exact_mod_cast Nat.succ_ne_zero k
          rw [Int.cast_mul, mul_div_cancel_right₀ _ this, rd_whole hB hz]
        · rw [Int.natAbs_mul, Int.natAbs_natCast, mul_comm]; exact hkz
        · rw [Int.natAbs_natCast]; omega
        · exact_mod_cast Nat.succ_ne_zero k
      · rw [Int.natAbs_mul, Int.natAbs_natCast, mul_comm]
        exact (Nat.mul_le_mul_right _ (Nat.le_succ k)).trans hkz
    have run : ∀ k, (immMean (0 : Fl R)).run (List.replicate (k + 1) (Fl.whole R z))
        = (immMean 0).push ((immMean 0).run (List.replicate k (Fl.whole R z))) (Fl.whole R z) := by
      intro k
      unfold MeanProvider.run
      rw [List.replicate_succ', List.foldl_append]; rfl
    intro k hk
    induction k with
    | zero => omega
    | succ k ih =>
      intro hkn
      rw [run]
      rcases Nat.eq_zero_or_pos k with e | e
      · subst e
        show CountMean.mk (0 + 1) (immMeanStep (0 + 1) (fdiv 0 1) _) = _
        rw [Fl.fdiv_one', ← whole_zero, step 0 0 hkn (fun _ => rfl) (by omega)]
      · rw [ih e (by omega)]
        show CountMean.mk (k + 1) (immMeanStep (k + 1) (.val (Fl.whole R z)) _) = _
        rw [step k z hkn (by omega) (fun _ => rfl)]
  rw [key n h0 le_rfl]
  rfl

/-- **C102** Both means of a constant signal of whole numbers are exactly the constant. -/
theorem C102_means_whole (hB : R.Counts B) (z : ℤ) {n : ℕ} (h0 : 0 < n) (hn : n ≤ B) (h : n * z.natAbs ≤ B) :
    Fl.val <$> (lazyMean 0).read ((lazyMean 0).run (List.replicate n (Fl.whole R z))) = .val (z : K) ∧
      Fl.val <$> (immMean 0).read ((immMean 0).run (List.replicate n (Fl.whole R z))) = .val (z : K) := by
  have hz : z.natAbs ≤ B := (Nat.le_mul_of_pos_left _ h0).trans h
  rw [C102_lazy_mean_whole hB z h0 hn h, C102_imm_mean_whole hB z h0 hn h]
  have : Fl.val <$> Res.val (Fl.whole R z) = .val (z : K) := congrArg Res.val (whole_val hB hz)
  exact ⟨this, this⟩

theorem lazyVar_whole (hB : R.Counts B) (P : MeanProvider (Fl R) (Fl R)) (z : ℤ) {n : ℕ} (h0 : 0 < n) (hn : n ≤ B)
    (h : n * z.natAbs ^ 2 ≤ B)
    (hP : P.read (P.run (List.replicate n (Fl.whole R z))) = .val (Fl.whole R z)) :
    lazyVarianceRun P 0 (List.replicate n (Fl.whole R z)) = .val 0 := by
  have hsq : z.natAbs ^ 2 ≤ B := (Nat.le_mul_of_pos_left _ h0).trans h
  have hz : z.natAbs ≤ B := (natAbs_le_sq z).trans hsq
  have hz2 : (z ^ 2).natAbs ≤ B := by rw [Int.natAbs_pow]; exact hsq
  have hm := momentRun_whole hB (N := 2) (by norm_num) (List.replicate n z) (by simp; omega) (by simpa using hn)
    (by simpa using h)
  rw [List.map_replicate] at hm
  have e : Fl.ofK R ((((List.replicate n z).map fun z => z ^ 2).sum : ℤ) / ((List.replicate n z).length : K))
      = Fl.whole R (z ^ 2) := by
    have hn0 : (n : K) ≠ 0 := by exact_mod_cast h0.ne'
    apply Fl.ext
    show R.rd _ = R.rd _
    congr 1
    rw [List.map_replicate, List.sum_replicate, List.length_replicate, nsmul_eq_mul, Int.cast_mul, Int.cast_natCast,
      mul_div_cancel_left₀ _ hn0]
  unfold lazyVarianceRun lazyVarianceResult
  rw [hm, hP, e, Res.val_bind, Res.val_bind, whole_mul hB hz hz, ← pow_two, Fl.sub_self']
  rfl

/-- **C102** All four combinations of variance and mean of a constant signal of whole numbers are exactly zero. -/
theorem C102_variances_whole (hB : R.Counts B) (z : ℤ) {n : ℕ} (h0 : 0 < n) (hn : n ≤ B) (h : n * z.natAbs ^ 2 ≤ B) :
    varianceRun (lazyMean 0) 0 (List.replicate n (Fl.whole R z)) = .val 0 ∧
      varianceRun (immMean 0) 0 (List.replicate n (Fl.whole R z)) = .val 0 ∧
      lazyVarianceRun (lazyMean 0) 0 (List.replicate n (Fl.whole R z)) = .val 0 ∧
      lazyVarianceRun (immMean 0) 0 (List.replicate n (Fl.whole R z)) = .val 0 := by
  have h1 : n * z.natAbs ≤ B := (Nat.mul_le_mul_left _ (natAbs_le_sq z)).trans h
  have le1 : ∀ k ≤ n, k * z.natAbs ≤ B := fun k hk => (Nat.mul_le_mul_right _ hk).trans h1
  exact ⟨C102_variance hB _ _ hn fun k k0 hk => C102_lazy_mean_whole hB z k0 (hk.trans hn) (le1 k hk),
    C102_variance hB _ _ hn fun k k0 hk => C102_imm_mean_whole hB z k0 (hk.trans hn) (le1 k hk),
    lazyVar_whole hB _ z h0 hn h (C102_lazy_mean_whole hB z h0 hn h1),
    lazyVar_whole hB _ z h0 hn h (C102_imm_mean_whole hB z h0 hn h1)⟩

/-! ## Rolling, immediate: any number -/

/-- **C102** With `immediate_rolling_mean` the rolling mean of a constant signal is exactly the constant and
`rolling_variance` is exactly zero, whatever the constant and however long the signal. -/
theorem C102_rolling_immediate (c : Fl R) {N n : ℕ} (hN0 : 0 < N) (hB : R.Counts N) (hn : 0 < n) :
    (rollRun .immediate N 0 (List.replicate n c)).mean .immediate = .val c ∧
      (rollRun .immediate N 0 (List.replicate n c)).var.result (rollRun .immediate N 0 (List.replicate n c)).b
        = .val 0 := by
  have hcnt : ∀ xs : List (Fl R), rollingCount (⟨N + 1, Spec.lastN (N + 1) xs⟩ : Ring (Fl R)) = min xs.length N := by
    intro xs
    simp only [rollingCount, Ring.full, lastN_length]
    split_ifs with h
    · simp at h; omega
    · simp at h; omega
  have key : ∀ n, 0 < n → (rollRun .immediate N 0 (List.replicate n c)).b
        = ⟨N + 1, Spec.lastN (N + 1) (List.replicate n c)⟩ ∧
      (rollRun .immediate N 0 (List.replicate n c)).imean = .val c ∧
      (rollRun .immediate N 0 (List.replicate n c)).var = ⟨.val c, .val 0⟩ := by
    intro n hn
    induction n with
    | zero => omega
    | succ n ih =>
      have e : rollRun .immediate N (0 : Fl R) (List.replicate (n + 1) c)
          = (rollRun .immediate N 0 (List.replicate n c)).push .immediate c := by
        rw [List.replicate_succ']; simp [rollRun, List.foldl_append]
      have hb : (rollRun .immediate N (0 : Fl R) (List.replicate n c)).b
          = ⟨N + 1, Spec.lastN (N + 1) (List.replicate n c)⟩ := by
        rcases Nat.eq_zero_or_pos n with h | h
        · subst h; simp [rollRun, RollSt.init, windowInit, Spec.lastN]
        · exact (ih h).1
      have hbuf : windowPush (rollRun .immediate N (0 : Fl R) (List.replicate n c)).b c
          = ⟨N + 1, Spec.lastN (N + 1) (List.replicate (n + 1) c)⟩ := by
        rw [hb, ← window_run, ← window_run, List.replicate_succ', List.foldl_append]; rfl
      have hmem : ∀ x ∈ Spec.lastN (N + 1) (List.replicate (n + 1) c), x = c := fun x hx =>
        List.eq_of_mem_replicate (List.mem_of_mem_drop hx)
      have hlen : (Spec.lastN (N + 1) (List.replicate (n + 1) c)).length = min (n + 1) (N + 1) := by
        rw [lastN_length, List.length_replicate]
      have hfront : (⟨N + 1, Spec.lastN (N + 1) (List.replicate (n + 1) c)⟩ : Ring (Fl R)).front = .val c := by
        unfold Ring.front
        cases hW : Spec.lastN (N + 1) (List.replicate (n + 1) c) with
        | nil => rw [hW] at hlen; simp at hlen
        | cons f t => rw [hmem f (by rw [hW]; simp)]
      have hrc := hcnt (List.replicate (n + 1) c)
      rw [List.length_replicate] at hrc
      have hne : ((rollingCount (⟨N + 1, Spec.lastN (N + 1) (List.replicate (n + 1) c)⟩ : Ring (Fl R)) : ℕ) : Fl R) ≠ 0 :=
        Fl.nat_ne hB (by omega) (by omega)
      -- the new mean
      have hmean : immRollingMeanStep ⟨N + 1, Spec.lastN (N + 1) (List.replicate (n + 1) c)⟩
          (rollRun .immediate N (0 : Fl R) (List.replicate n c)).imean c = .val c := by
        rcases Nat.eq_zero_or_pos n with h | h
        · subst h
          have i0 : (rollRun .immediate N (0 : Fl R) (List.replicate 0 c)).imean = .val 0 := Fl.fdiv_one' 0
          have hnf : (⟨N + 1, Spec.lastN (N + 1) (List.replicate (0 + 1) c)⟩ : Ring (Fl R)).full = false := by
            unfold Ring.full
            simp only [hlen]
            simp
            omega
          rw [i0]
          unfold immRollingMeanStep
          rw [Res.val_bind, hnf, if_neg (by simp), hrc]
          have h1 : min (0 + 1) N = 1 := by omega
          have c1 : ((1 : ℕ) : Fl R) = 1 := Fl.ext (by rw [Fl.val_natCast, Nat.cast_one, R.one]; rfl)
          rw [h1, c1, Fl.sub_zero', Fl.fdiv_one', Fl.fdiv_one']
          by_cases g1 : (0 : Fl R) > c
          · rw [if_pos g1, Res.val_bind]
            refine congrArg Res.val (Fl.ext ?_)
            rw [Fl.val_sub, Fl.val_sub, Fl.val_zero, zero_sub (c.val), R.neg _ c.rd_val, zero_sub, neg_neg, Fl.rd_val]
          · rw [if_neg g1]
            by_cases g2 : (0 : Fl R) < c
            · rw [if_pos g2, Res.val_bind, Fl.zero_add']; rfl
            · rw [if_neg g2]
              exact congrArg Res.val (le_antisymm (not_lt.1 g1) (not_lt.1 g2))
        · rw [(ih h).2.1]
          unfold immRollingMeanStep
          rw [Res.val_bind]
          by_cases hf : (⟨N + 1, Spec.lastN (N + 1) (List.replicate (n + 1) c)⟩ : Ring (Fl R)).full = true
          · rw [if_pos hf, hfront, Res.val_bind, if_neg (lt_irrefl c), if_neg (lt_irrefl c)]; rfl
          · rw [if_neg hf, if_neg (lt_irrefl c), if_neg (lt_irrefl c)]; rfl
      rw [e]
      refine ⟨hbuf, ?_, ?_⟩
      · show immRollingMeanStep (windowPush _ c) _ c = _
        rw [hbuf, hmean]
      · show RollVar.step (windowPush _ c) (immRollingMeanStep (windowPush _ c) _ c) _ c = _
        rw [hbuf, hmean]
        obtain ⟨p, hp⟩ : ∃ p : Fl R, (rollRun .immediate N (0 : Fl R) (List.replicate n c)).var = ⟨.val p, .val 0⟩ := by
          rcases Nat.eq_zero_or_pos n with h | h
          · subst h
            refine ⟨0, ?_⟩
            show RollVar.mk (fdiv 0 1) (fdiv 0 1) = _
            rw [Fl.fdiv_one']
          · exact ⟨c, (ih h).2.2⟩
        rw [hp]
        unfold RollVar.step
        simp only [Res.val_bind, Fl.sub_self', Fl.zero_mul', Fl.add_zero', hfront]
        congr 1
        split_ifs with hf
        · simp only [Res.pure_eq, preventUnderflow, lt_irrefl, if_false]
        · rfl
  obtain ⟨k1, k2, k3⟩ := key n hn
  refine ⟨k2, ?_⟩
  rw [k1, k3]
  unfold RollVar.result
  have hrc := hcnt (List.replicate n c)
  rw [List.length_replicate] at hrc
  by_cases h2 : rollingCount (⟨N + 1, Spec.lastN (N + 1) (List.replicate n c)⟩ : Ring (Fl R)) < 2
  · rw [if_pos h2]
  · rw [if_neg h2, Res.val_bind, Fl.nat_pred hB (by omega) (by omega),
      Fl.zero_fdiv (Fl.nat_ne hB (by omega) (by omega))]

/-! ## Quantile estimators: any number -/

/-- **C102** The P-square estimates of a constant signal are exactly the constant, weighted or not, whatever the weights
(even zero or negative ones) and whatever has been extracted in between. -/
theorem C102_quantiles (hs : R.Shrinks) (p c : Fl R) :
    (∀ h : List (Op (Fl R) Unit), 5 ≤ (pushes h).length → (∀ x ∈ pushes h, x = c) →
      (psqQuantileSet p).answer h () = .val c) ∧
    ∀ h : List (Op (Fl R × Fl R) Unit), 5 ≤ (pushes h).length → (∀ x ∈ pushes h, x.1 = c) →
      (wpsqQuantileSet p).answer h () = .val c := by
  obtain ⟨hw, hq⟩ := C85_quantile_within hs p
  constructor
  · intro h h5 hc
    obtain ⟨v, e, ⟨a, ha, hav⟩, b, hb, hbv⟩ := hq h h5
    rw [hc a ha] at hav
    rw [hc b hb] at hbv
    rw [e, le_antisymm hbv hav]
  · intro h h5 hc
    obtain ⟨v, e, ⟨a, ha, hav⟩, b, hb, hbv⟩ := hw h h5
    obtain ⟨q, hq1, rfl⟩ := List.mem_map.1 ha
    obtain ⟨r, hr1, rfl⟩ := List.mem_map.1 hb
    rw [hc q hq1] at hav
    rw [hc r hr1] at hbv
    rw [e, le_antisymm hbv hav]

/-- **C102** The same for the extended P-square estimates. -/
theorem C102_extended (hs : R.Shrinks) (ps : List (Fl R)) (c : Fl R) :
    (∀ h : List (Op (Fl R) Unit), 2 * ps.length + 3 ≤ (pushes h).length → (∀ x ∈ pushes h, x = c) →
      (epsqSet ps).answer h () = .val (List.replicate ps.length c)) ∧
    (ps ≠ [] → ∀ h : List (Op (Fl R × Fl R) Unit), 2 * ps.length + 3 ≤ (pushes h).length →
      (∀ x ∈ pushes h, x.1 = c) → (wepsqSet ps).answer h () = .val (List.replicate ps.length c)) := by
  obtain ⟨hw, hq⟩ := C85_extended hs ps
  constructor
  · intro h h5 hc
    obtain ⟨vs, e, hl, _, hv⟩ := hq h h5
    rw [e, List.eq_replicate_of_mem (a := c) (l := vs), hl]
    intro v hvm
    obtain ⟨⟨a, ha, hav⟩, b, hb, hbv⟩ := hv v hvm
    rw [hc a ha] at hav
    rw [hc b hb] at hbv
    exact le_antisymm hbv hav
  · intro h0 h h5 hc
    obtain ⟨vs, e, hl, _, hv⟩ := hw h0 h h5
    rw [e, List.eq_replicate_of_mem (a := c) (l := vs), hl]
    intro v hvm
    obtain ⟨⟨a, ha, hav⟩, b, hb, hbv⟩ := hv v hvm
    obtain ⟨q, hq1, rfl⟩ := List.mem_map.1 ha
    obtain ⟨r, hr1, rfl⟩ := List.mem_map.1 hb
    rw [hc q hq1] at hav
    rw [hc r hr1] at hbv
    exact le_antisymm hbv hav

/-! ## The hypotheses can be met; other constants -/

example : varianceRun (lazyMean 0) 0 (List.replicate 1000 (Fl.whole double 255)) = .val 0 ∧
    Fl.val <$> (immMean 0).read ((immMean 0).run (List.replicate 1000 (Fl.whole double 255))) = .val 255 :=
  ⟨(C102_variances_whole (double_counts le_rfl) 255 (by norm_num) (by norm_num) (by norm_num)).1,
    by exact_mod_cast (C102_means_whole (double_counts le_rfl) 255 (by norm_num) (by norm_num) (by norm_num)).2⟩

/-- One tenth, a thousand times, in a window of ten. -/
example : (rollRun .immediate 10 0 (List.replicate 1000 (Fl.ofK double (1 / 10)))).mean .immediate
    = .val (Fl.ofK double (1 / 10)) :=
  (C102_rolling_immediate _ (by norm_num) (double_counts (by norm_num)) (by norm_num)).1

example : (psqQuantileSet (Fl.ofK double (1 / 3))).answer (onlyPushes (List.replicate 6 (Fl.ofK double (1 / 10)))) ()
    = .val (Fl.ofK double (1 / 10)) :=
  (C102_quantiles double_shrinks _ _).1 _ (by decide) (by
    intro x hx
    have e : pushes (onlyPushes (Q := Unit) (List.replicate 6 (Fl.ofK double (1 / 10))))
        = List.replicate 6 (Fl.ofK double (1 / 10)) := rfl
    rw [e] at hx
    exact List.eq_of_mem_replicate hx)

example : (epsqSet [Fl.ofK double (1 / 3)]).answer (onlyPushes (List.replicate 6 (Fl.ofK double (1 / 10)))) ()
    = .val [Fl.ofK double (1 / 10)] :=
  (C102_extended double_shrinks [Fl.ofK double (1 / 3)] (Fl.ofK double (1 / 10))).1 _ (by decide) (by
    intro x hx
    have e : pushes (onlyPushes (Q := Unit) (List.replicate 6 (Fl.ofK double (1 / 10))))
        = List.replicate 6 (Fl.ofK double (1 / 10)) := rfl
    rw [e] at hx
    exact List.eq_of_mem_replicate hx)

/-- **C102, other constants**: for one tenth the variance over the recursive or the lazy mean of three equal samples is
not zero, and the lazy rolling mean of a window of three is not the constant after five equal samples. -/
theorem C102_tenth_fails :
    let c := Fl.ofK double (1 / 10)
    varianceRun (lazyMean 0) 0 (List.replicate 3 c) ≠ .val 0 ∧
      varianceRun (immMean 0) 0 (List.replicate 3 c) ≠ .val 0 ∧
      (rollRun .lazy 3 0 (List.replicate 5 c)).mean .lazy ≠ .val c := by
  decide +kernel

end Acc
