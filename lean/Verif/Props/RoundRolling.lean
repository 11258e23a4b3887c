import Verif.Props.Round

/-!
# C92: rolling means and moments in floating point arithmetic

`Fl R` is a floating point type with rounding `R`; `u` bounds the relative error of one operation.
-/

set_option linter.unusedSectionVars false

namespace Acc

variable {K : Type} [Field K] [LinearOrder K] [IsStrictOrderedRing K] {R : Rounding K} {u : K}

theorem rollRun_push_last {X : Type} [Arith X] [LinearOrder X] (kind : RollMeanKind) (N : ℕ) (x0 : X) (l : List X) (x : X) :
    rollRun kind N x0 (l ++ [x]) = (rollRun kind N x0 l).push kind x := by
  simp [rollRun, List.foldl_append]

theorem rollRun_window {X : Type} [Arith X] [LinearOrder X] (kind : RollMeanKind) (N : ℕ) (x0 : X) (xs : List X) :
    (rollRun kind N x0 xs).b = ⟨N + 1, Spec.lastN (N + 1) xs⟩ := by
  rw [← window_run]
  induction xs using List.reverseRecOn with
  | nil => rfl
  | append_singleton l x ih =>
    rw [rollRun_push_last, List.foldl_append, ← ih]
    rfl

theorem rollRun_window_snoc {X : Type} [Arith X] [LinearOrder X] (kind : RollMeanKind) (N : ℕ) (x0 : X) (l : List X) (x : X) :
    windowPush (rollRun kind N x0 l).b x = nextRing N (Spec.lastN N l) x := by
  have := rollRun_window kind N x0 (l ++ [x])
  rw [rollRun_push_last] at this
  change windowPush (rollRun kind N x0 l).b x = _ at this
  rw [this, lastN_snoc_succ]
  rfl

theorem rollRun_count {X : Type} [Arith X] [LinearOrder X] (kind : RollMeanKind) (N : ℕ) (x0 : X) (xs : List X) :
    rollingCount (rollRun kind N x0 xs).b = min xs.length N := by
  rw [rollRun_window]
  simp only [rollingCount, Ring.full, lastN_length]
  split_ifs with h
  · simp at h; omega
  · simp at h; omega

/-- The sum of a part is at most that of the absolute values of everything. -/
theorem drop_sum_le {A : Type} (f : A → K) (l : List A) (k : ℕ) :
    |((l.drop k).map f).sum| ≤ (l.map fun a => |f a|).sum := by
  refine (abs_sum_le f _).trans ?_
  have h1 : (l.map fun a => |f a|).sum
      = ((l.take k).map fun a => |f a|).sum + ((l.drop k).map fun a => |f a|).sum := by
    rw [← List.sum_append, ← List.map_append, List.take_append_drop]
  have := absSum_nonneg f (l.take k)
  linarith

/-! ## lazy mean -/

/-- **C92** The lazy `rolling_mean`: the error bound of `rolling_sum` (C62) and one division. -/
theorem C92_lazy_mean (hu : R.RelErr u) {N : ℕ} (hN0 : 0 < N) (xs : List (Fl R)) (hne : xs ≠ [])
    (hc : R.rd ((min xs.length N : ℕ) : K) = (min xs.length N : ℕ)) :
    ∃ m : Fl R, (rollRun .lazy N 0 xs).mean .lazy = .val m ∧
      |m.val - ((xs.drop (xs.length - N)).map Fl.val).sum / (min xs.length N : ℕ)|
        ≤ ((1 + u) ^ (2 * xs.length + 1) - 1) * ((xs.map fun x => |x.val|).sum / (min xs.length N : ℕ)) := by
  obtain ⟨s, hs, he⟩ := C62_rolling_sum hu .lazy hN0 xs
  have hn : 0 < min xs.length N := by
    have := List.length_pos_iff.2 hne
    omega
  obtain ⟨m, e, hm⟩ := div_count_err hu hn hc (drop_sum_le Fl.val xs _) he
  refine ⟨m, ?_, hm.trans (le_of_eq ?_)⟩
  · rw [RollSt.mean, lazyRollingMeanResult, hs, Res.val_bind, rollRun_count]
    exact e
  · rw [pow_succ]; ring

/-! ## moments -/

theorem nextRing_map {X Y : Type} (f : X → Y) (N : ℕ) (W : List X) (x : X) :
    nextRing N (W.map f) (f x) = ⟨N + 1, (nextRing N W x).elems.map f⟩ := by
  simp [nextRing]

/-- `rolling_moment<M>` is the rolling sum of the powers. -/
theorem rolling_moment_sum {X : Type} [Arith X] [LinearOrder X] (kind : RollMeanKind) (M N : ℕ) (xs : List X) :
    (rollRun kind N 0 xs).moment M = (rollRun kind N 0 (xs.map fun x => mpow x M)).sum := by
  induction xs using List.reverseRecOn with
  | nil => rfl
  | append_singleton l x ih =>
    rw [List.map_append, List.map_singleton, rollRun_push_last, rollRun_push_last]
    change rollingMomentStep M (windowPush (rollRun kind N 0 l).b x) ((rollRun kind N 0 l).moment M) x
      = rollingSumStep (windowPush (rollRun kind N 0 (l.map fun x => mpow x M)).b (mpow x M))
          (rollRun kind N 0 (l.map fun x => mpow x M)).sum (mpow x M)
    have hl : Spec.lastN N (l.map fun x => mpow x M) = (Spec.lastN N l).map fun x => mpow x M := by
      simp [Spec.lastN, List.map_drop]
    rw [rollRun_window_snoc, rollRun_window_snoc, ih, hl]
    unfold rollingMomentStep rollingSumStep
    rw [nextRing_full, nextRing_full, List.length_map]
    by_cases hN : (Spec.lastN N l).length = N
    · obtain ⟨f, hf, -⟩ := full_split (x := x) hN
      have hf' : (nextRing N ((Spec.lastN N l).map fun x => mpow x M) (mpow x M)).front = .val (mpow f M) := by
        rw [nextRing_map (fun x => mpow x M)]
        unfold Ring.front at hf ⊢
        cases he : (nextRing N (Spec.lastN N l) x).elems with
        | nil => rw [he] at hf; cases hf
        | cons y t => rw [he] at hf; cases hf; rfl
      simp only [hN, decide_true, if_true, hf, hf', Res.val_bind]
    · simp only [hN, decide_false, Bool.false_eq_true, if_false]

/-- **C92** `rolling_moment<M>`: `M` roundings more than `rolling_sum`, again relative to everything ever pushed. -/
theorem C92_moment (hu : R.RelErr u) (kind : RollMeanKind) {M N : ℕ} (hM : 0 < M) (hN0 : 0 < N) (xs : List (Fl R))
    (hne : xs ≠ []) (hc : R.rd ((min xs.length N : ℕ) : K) = (min xs.length N : ℕ)) :
    ∃ m : Fl R, rollingMomentResult (rollRun kind N 0 xs).b ((rollRun kind N 0 xs).moment M) = .val m ∧
      |m.val - ((xs.drop (xs.length - N)).map fun x => x.val ^ M).sum / (min xs.length N : ℕ)|
        ≤ ((1 + u) ^ (2 * xs.length + M) - 1) * ((xs.map fun x => |x.val ^ M|).sum / (min xs.length N : ℕ)) := by
  have h0 := hu.nonneg
  have hn : 0 < min xs.length N := by
    have := List.length_pos_iff.2 hne
    omega
  obtain ⟨s, hs, he⟩ := C62_rolling_sum hu kind hN0 (xs.map fun x => mpow x M)
  rw [List.length_map, ← List.map_drop, List.map_map, List.map_map] at he
  have hp : ∀ l : List (Fl R), |(l.map (Fl.val ∘ fun x => mpow x M)).sum - (l.map fun x => x.val ^ M).sum|
      ≤ ((1 + u) ^ (M - 1) - 1) * (l.map fun x => |x.val ^ M|).sum := by
    intro l
    induction l with
    | nil => simp
    | cons x l ih =>
      simp only [List.map_cons, List.sum_cons, Function.comp]
      have hx := mpow_err hu x M hM
      rw [show (mpow x M).val + (l.map (Fl.val ∘ fun x => mpow x M)).sum - (x.val ^ M + (l.map fun x => x.val ^ M).sum)
        = ((mpow x M).val - x.val ^ M) + ((l.map (Fl.val ∘ fun x => mpow x M)).sum - (l.map fun x => x.val ^ M).sum) by ring]
      exact (abs_add_le _ _).trans (by linarith)
  have ha : (xs.map ((fun x : Fl R => |x.val|) ∘ fun x => mpow x M)).sum
      ≤ (1 + u) ^ (M - 1) * (xs.map fun x => |x.val ^ M|).sum := by
    clear he hs hn hc hne
    induction xs with
    | nil => simp
    | cons x l ih =>
      simp only [List.map_cons, List.sum_cons, Function.comp] at ih ⊢
      have hx := mpow_err hu x M hM
      have : |(mpow x M).val| ≤ |(mpow x M).val - x.val ^ M| + |x.val ^ M| := by
        have := abs_add_le ((mpow x M).val - x.val ^ M) (x.val ^ M)
        rwa [sub_add_cancel] at this
      have e := ih
      linarith
  have hd := hp (xs.drop (xs.length - N))
  have hle : ((xs.drop (xs.length - N)).map fun x => |x.val ^ M|).sum ≤ (xs.map fun x => |x.val ^ M|).sum := by
    have h1 : (xs.map fun x => |x.val ^ M|).sum = ((xs.take (xs.length - N)).map fun x => |x.val ^ M|).sum
        + ((xs.drop (xs.length - N)).map fun x => |x.val ^ M|).sum := by
      rw [← List.sum_append, ← List.map_append, List.take_append_drop]
    have := absSum_nonneg (fun x : Fl R => x.val ^ M) (xs.take (xs.length - N))
    linarith
  have g1 : 1 ≤ (1 + u) ^ (M - 1) := one_le_pow₀ (by linarith)
  have g2 : 1 ≤ (1 + u) ^ (2 * xs.length) := one_le_pow₀ (by linarith)
  have hA := absSum_nonneg (fun x : Fl R => x.val ^ M) xs
  have hs' : |s.val - ((xs.drop (xs.length - N)).map fun x => x.val ^ M).sum|
      ≤ ((1 + u) ^ (2 * xs.length) * (1 + u) ^ (M - 1) - 1) * (xs.map fun x => |x.val ^ M|).sum := by
    have a1 : ((1 + u) ^ (2 * xs.length) - 1) * (xs.map ((fun x : Fl R => |x.val|) ∘ fun x => mpow x M)).sum
        ≤ ((1 + u) ^ (2 * xs.length) - 1) * ((1 + u) ^ (M - 1) * (xs.map fun x => |x.val ^ M|).sum) :=
      mul_le_mul_of_nonneg_left ha (by linarith)
    have a2 : ((1 + u) ^ (M - 1) - 1) * ((xs.drop (xs.length - N)).map fun x => |x.val ^ M|).sum
        ≤ ((1 + u) ^ (M - 1) - 1) * (xs.map fun x => |x.val ^ M|).sum :=
      mul_le_mul_of_nonneg_left hle (by linarith)
    have a3 := abs_add_le (s.val - ((xs.drop (xs.length - N)).map (Fl.val ∘ fun x => mpow x M)).sum)
      (((xs.drop (xs.length - N)).map (Fl.val ∘ fun x => mpow x M)).sum
        - ((xs.drop (xs.length - N)).map fun x => x.val ^ M).sum)
    rw [sub_add_sub_cancel] at a3
    refine a3.trans ((add_le_add (he.trans a1) (hd.trans a2)).trans (le_of_eq (by ring)))
  obtain ⟨m, e, hm⟩ := div_count_err hu hn hc (drop_sum_le (fun x : Fl R => x.val ^ M) xs _) hs'
  refine ⟨m, ?_, hm.trans (le_of_eq ?_)⟩
  · rw [rollingMomentResult, rolling_moment_sum, hs, Res.val_bind, rollRun_count]
    exact e
  · rw [show 2 * xs.length + M = 2 * xs.length + (M - 1) + 1 by omega, pow_succ, pow_add]; ring

/-! ## immediate mean -/

/-- The update of the immediate mean: the mean moves towards `x` by a fraction of the distance of `x` and `a`. -/
theorem move_err (hu : R.RelErr u) {n : ℕ} (hn : 0 < n) (hc : R.rd (n : K) = n) (m a x : Fl R) :
    ∃ (m' : Fl R) (D : K),
      (if a > x then (do let d ← fdiv (a - x) (n : Fl R); return m - d)
        else if a < x then (do let d ← fdiv (x - a) (n : Fl R); return m + d)
        else return m) = Res.val m' ∧ m'.val = R.rd (m.val + D) ∧
      |D - (x.val - a.val) / n| ≤ ((1 + u) ^ 2 - 1) * (|x.val - a.val| / n) := by
  have key : ∀ y z : Fl R, ∃ d : Fl R, fdiv (y - z) (n : Fl R) = .val d ∧
      |d.val - (y.val - z.val) / n| ≤ ((1 + u) ^ 2 - 1) * (|y.val - z.val| / n) := by
    intro y z
    obtain ⟨d, e, hd⟩ := div_count_err hu hn hc (s := y - z) (t := y.val - z.val) (d := u) le_rfl (hu _)
    exact ⟨d, e, hd.trans (le_of_eq (by ring))⟩
  by_cases h1 : a > x
  · obtain ⟨d, e, hd⟩ := key a x
    refine ⟨m - d, -d.val, ?_, ?_, ?_⟩
    · rw [if_pos h1, e, Res.val_bind]; rfl
    · rw [Fl.val_sub, sub_eq_add_neg]
    · rw [show -d.val - (x.val - a.val) / n = -(d.val - (a.val - x.val) / n) by ring, abs_neg, abs_sub_comm x.val]
      exact hd
  · by_cases h2 : a < x
    · obtain ⟨d, e, hd⟩ := key x a
      refine ⟨m + d, d.val, ?_, rfl, hd⟩
      rw [if_neg h1, if_pos h2, e, Res.val_bind]; rfl
    · refine ⟨m, 0, ?_, ?_, ?_⟩
      · rw [if_neg h1, if_neg h2]; rfl
      · rw [add_zero, Fl.rd_val]
      · have : a = x := le_antisymm (not_lt.1 h1) (not_lt.1 h2)
        simp [this]

theorem roll_full_arith {g q C S n m D x f A : K} (hp1 : 1 ≤ g) (hg2 : 1 ≤ q) (hC0 : 0 ≤ C) (hn : 0 < n)
    (ie : |n * m - S| ≤ (g - 1) * C) (hD : |D - (x - f) / n| ≤ (q - 1) * (|x - f| / n)) (hA : A = C + (|x| + |f|)) :
    |n * (m + D) - (S + (x - f))| ≤ (g * q - 1) * A := by
  have hxf : |x - f| ≤ |x| + |f| := abs_sub _ _
  have hD' : |n * D - (x - f)| ≤ (q - 1) * (|x| + |f|) := by
    rw [show n * D - (x - f) = n * (D - (x - f) / n) by field_simp, abs_mul, abs_of_pos hn]
    refine (mul_le_mul_of_nonneg_left hD hn.le).trans ?_
    rw [show n * ((q - 1) * (|x - f| / n)) = (q - 1) * |x - f| by field_simp]
    exact mul_le_mul_of_nonneg_left hxf (by linarith)
  have := abs_add_le (n * m - S) (n * D - (x - f))
  rw [show n * (m + D) - (S + (x - f)) = (n * m - S) + (n * D - (x - f)) by ring, hA]
  have hy : 0 ≤ |x| + |f| := by positivity
  have hgq : g ≤ g * q := le_mul_of_one_le_right (by linarith) hg2
  have hqg : q ≤ g * q := le_mul_of_one_le_left (by linarith) hp1
  have k1 : (g - 1) * C ≤ (g * q - 1) * C := mul_le_mul_of_nonneg_right (by linarith) hC0
  have k2 : (q - 1) * (|x| + |f|) ≤ (g * q - 1) * (|x| + |f|) := mul_le_mul_of_nonneg_right (by linarith) hy
  rw [mul_add]
  linarith

theorem roll_fill_arith {g q A S n m D x : K} (hp1 : 1 ≤ g) (hg2 : 1 ≤ q) (hn : 0 < n + 1)
    (ie : |n * m - S| ≤ (g - 1) * A) (ib : |m| ≤ g * A) (hD : |D - (x - m) / (n + 1)| ≤ (q - 1) * (|x - m| / (n + 1))) :
    |(n + 1) * (m + D) - (S + x)| ≤ (g * q - 1) * (A + |x|) := by
  have hx := abs_nonneg x
  have hxm : |x - m| ≤ |x| + |m| := abs_sub _ _
  have hD' : |(n + 1) * D - (x - m)| ≤ (q - 1) * (|x| + |m|) := by
    rw [show (n + 1) * D - (x - m) = (n + 1) * (D - (x - m) / (n + 1)) by field_simp, abs_mul, abs_of_pos hn]
    refine (mul_le_mul_of_nonneg_left hD hn.le).trans ?_
    rw [show (n + 1) * ((q - 1) * (|x - m| / (n + 1))) = (q - 1) * |x - m| by field_simp]
    exact mul_le_mul_of_nonneg_left hxm (by linarith)
  have := abs_add_le (n * m - S) ((n + 1) * D - (x - m))
  rw [show (n + 1) * (m + D) - (S + x) = (n * m - S) + ((n + 1) * D - (x - m)) by ring]
  have hqg : q ≤ g * q := le_mul_of_one_le_left (by linarith) hp1
  have k1 : (q - 1) * |m| ≤ (q - 1) * (g * A) := mul_le_mul_of_nonneg_left ib (by linarith)
  have k2 : (q - 1) * |x| ≤ (g * q - 1) * |x| := mul_le_mul_of_nonneg_right (by linarith) hx
  have k3 : (g * q - 1) * A = (g - 1) * A + (q - 1) * (g * A) := by ring
  rw [mul_add] at hD' ⊢
  linarith

theorem roll_round_arith (hu : R.RelErr u) {g C S n m D m' : K} (hn1 : 1 ≤ n) (hSC : |S| ≤ C)
    (hD : m' = R.rd (m + D)) (hz : |n * (m + D) - S| ≤ (g * (1 + u) ^ 2 - 1) * C) :
    |m'| ≤ g * (1 + u) ^ 3 * C ∧ |n * m' - S| ≤ (g * (1 + u) ^ 3 - 1) * C := by
  have hn : 0 < n := by linarith
  have r := hu.round (z := m + D) (t := S / n) (a := C / n) (d := g * (1 + u) ^ 2 - 1)
    (by rw [abs_div, abs_of_pos hn]; exact div_le_div_of_nonneg_right hSC hn.le)
    (by
      rw [show m + D - S / n = (n * (m + D) - S) / n by field_simp, abs_div, abs_of_pos hn, ← mul_div_assoc]
      exact div_le_div_of_nonneg_right hz hn.le)
  rw [← hD] at r
  have r' : |n * m' - S| ≤ (g * (1 + u) ^ 3 - 1) * C := by
    rw [show n * m' - S = n * (m' - S / n) by field_simp, abs_mul, abs_of_pos hn]
    refine (mul_le_mul_of_nonneg_left r hn.le).trans (le_of_eq ?_)
    field_simp
    ring
  refine ⟨?_, r'⟩
  have h1 : |n * m'| ≤ g * (1 + u) ^ 3 * C := by
    have := abs_add_le (n * m' - S) S
    rw [sub_add_cancel] at this
    linarith
  rw [abs_mul, abs_of_pos hn] at h1
  exact (le_mul_of_one_le_left (abs_nonneg _) hn1).trans h1

theorem immRollingMean_err (hu : R.RelErr u) (kind : RollMeanKind) {N : ℕ} (hN0 : 0 < N) (xs : List (Fl R))
    (hc : R.Counts (min xs.length N)) :
    ∃ m : Fl R, (rollRun kind N 0 xs).imean = .val m ∧
      |m.val| ≤ (1 + u) ^ (3 * xs.length) * (2 * (xs.map fun x => |x.val|).sum
        - ((Spec.lastN N xs).map fun x => |x.val|).sum) ∧
      |((Spec.lastN N xs).length : K) * m.val - ((Spec.lastN N xs).map Fl.val).sum|
        ≤ ((1 + u) ^ (3 * xs.length) - 1) * (2 * (xs.map fun x => |x.val|).sum
            - ((Spec.lastN N xs).map fun x => |x.val|).sum) := by
  have h0 := hu.nonneg
  have one_ne : (1 : Fl R) ≠ 0 := by
    intro e
    rw [Fl.eq_zero_iff] at e
    exact one_ne_zero e
  induction xs using List.reverseRecOn with
  | nil =>
    refine ⟨0 / 1, by simp [rollRun, RollSt.init, fdiv, one_ne], ?_, by simp [Spec.lastN]⟩
    rw [Fl.val_div, Fl.val_zero, zero_div, R.zero]
    simp [Spec.lastN]
  | append_singleton l x ih =>
    obtain ⟨m, im, ib, ie⟩ := ih fun k hk => hc k (hk.trans (by simp only [List.length_append, List.length_singleton]; omega))
    have hlen := lastN_length N (l ++ [x])
    rw [List.length_append, List.length_singleton] at hlen
    have hpos : 0 < (Spec.lastN N (l ++ [x])).length := by omega
    have hcn : R.rd (((Spec.lastN N (l ++ [x])).length : ℕ) : K) = ((Spec.lastN N (l ++ [x])).length : ℕ) :=
      hc _ (by rw [lastN_length])
    have hcount : rollingCount (nextRing N (Spec.lastN N l) x) = (Spec.lastN N (l ++ [x])).length := by
      rw [nextRing_count, lastN_snoc, nextWin]
    have e : (rollRun kind N (0 : Fl R) (l ++ [x])).imean
        = immRollingMeanStep (nextRing N (Spec.lastN N l) x) (.val m) x := by
      rw [rollRun_push_last, ← im, ← rollRun_window_snoc kind N 0]; rfl
    have hall : (((l ++ [x]).map fun x => |x.val|).sum : K) = (l.map fun x => |x.val|).sum + |x.val| := by simp
    have hpow : (1 + u) ^ (3 * (l ++ [x]).length) = (1 + u) ^ (3 * l.length) * (1 + u) ^ 3 := by
      rw [List.length_append, List.length_singleton, mul_add, pow_add]
    have hwl : ((Spec.lastN N l).map fun x => |x.val|).sum ≤ (l.map fun x => |x.val|).sum := by
      have h1 : (l.map fun x => |x.val|).sum = ((l.take (l.length - N)).map fun x => |x.val|).sum
          + ((l.drop (l.length - N)).map fun x => |x.val|).sum := by
        rw [← List.sum_append, ← List.map_append, List.take_append_drop]
      have := absSum_nonneg Fl.val (l.take (l.length - N))
      unfold Spec.lastN
      linarith
    have hwa := abs_sum_le Fl.val (Spec.lastN N (l ++ [x]))
    have hw0 := absSum_nonneg Fl.val (Spec.lastN N l)
    have hx := abs_nonneg x.val
    have hp1 : 1 ≤ (1 + u) ^ (3 * l.length) := one_le_pow₀ (by linarith)
    have hg1 : 1 ≤ 1 + u := by linarith
    -- the last rounding, common to both cases
    have fin : ∀ (m' : Fl R) (D C : K), (rollRun kind N (0 : Fl R) (l ++ [x])).imean = .val m' →
        m'.val = R.rd (m.val + D) →
        2 * ((l ++ [x]).map fun x => |x.val|).sum - ((Spec.lastN N (l ++ [x])).map fun x => |x.val|).sum = C →
        ((Spec.lastN N (l ++ [x])).map fun x => |x.val|).sum ≤ C →
        |((Spec.lastN N (l ++ [x])).length : K) * (m.val + D) - ((Spec.lastN N (l ++ [x])).map Fl.val).sum|
          ≤ ((1 + u) ^ (3 * l.length) * (1 + u) ^ 2 - 1) * C →
        ∃ m : Fl R, (rollRun kind N 0 (l ++ [x])).imean = .val m ∧
          |m.val| ≤ (1 + u) ^ (3 * (l ++ [x]).length) * (2 * ((l ++ [x]).map fun x => |x.val|).sum
            - ((Spec.lastN N (l ++ [x])).map fun x => |x.val|).sum) ∧
          |((Spec.lastN N (l ++ [x])).length : K) * m.val - ((Spec.lastN N (l ++ [x])).map Fl.val).sum|
            ≤ ((1 + u) ^ (3 * (l ++ [x]).length) - 1) * (2 * ((l ++ [x]).map fun x => |x.val|).sum
                - ((Spec.lastN N (l ++ [x])).map fun x => |x.val|).sum) := by
      intro m' D C hm' hD hC hWC hz
      have hn1 : (1 : K) ≤ (Spec.lastN N (l ++ [x])).length := by exact_mod_cast hpos
      rw [hC, hpow]
      obtain ⟨a, b⟩ := roll_round_arith hu hn1 (hwa.trans hWC) hD hz
      exact ⟨m', hm', a, b⟩
    by_cases hN : (Spec.lastN N l).length = N
    · -- the window is full: the oldest sample leaves
      obtain ⟨f, hf, hsplit⟩ := full_split (x := x) hN
      have hwin : Spec.lastN N (l ++ [x]) = nextWin N (Spec.lastN N l) x := by
        rw [lastN_snoc, nextWin]
      have hsum : ((Spec.lastN N l).map Fl.val).sum + x.val
          = f.val + ((Spec.lastN N (l ++ [x])).map Fl.val).sum := by
        have := congrArg (fun q => (q.map Fl.val).sum) hsplit
        simp only [List.map_append, List.sum_append, List.map_cons, List.map_nil, List.sum_cons, List.sum_nil,
          add_zero] at this
        rw [hwin]; exact this
      have hasum : ((Spec.lastN N l).map fun x => |x.val|).sum + |x.val|
          = |f.val| + ((Spec.lastN N (l ++ [x])).map fun x => |x.val|).sum := by
        have := congrArg (fun q => (q.map fun x : Fl R => |x.val|).sum) hsplit
        simp only [List.map_append, List.sum_append, List.map_cons, List.map_nil, List.sum_cons, List.sum_nil,
          add_zero] at this
        rw [hwin]; exact this
      have hlN : (Spec.lastN N (l ++ [x])).length = (Spec.lastN N l).length := by
        rw [hN, hlen]
        rw [lastN_length] at hN
        omega
      obtain ⟨m', D, e', hm', hD⟩ := move_err hu hpos hcn m f x
      refine fin m' D _ ?_ hm' rfl ?_ ?_
      · rw [e, immRollingMeanStep, Res.val_bind, nextRing_full]
        simp only [hN, decide_true, if_true, hf, Res.val_bind, hcount]
        exact e'
      · have hf0 := abs_nonneg f.val
        rw [hall]
        have : ((Spec.lastN N (l ++ [x])).map fun x => |x.val|).sum ≤ (l.map fun x => |x.val|).sum + |x.val| := by linarith
        linarith
      · have hn : (0 : K) < (Spec.lastN N (l ++ [x])).length := by exact_mod_cast hpos
        rw [← hlN] at ie
        rw [show ((Spec.lastN N (l ++ [x])).map Fl.val).sum = ((Spec.lastN N l).map Fl.val).sum + (x.val - f.val) by linarith,
          hall]
        exact roll_full_arith hp1 (one_le_pow₀ hg1) (by linarith) hn ie hD (by linarith)
    · -- the window is filling
      have hwin : Spec.lastN N (l ++ [x]) = Spec.lastN N l ++ [x] := by
        rw [lastN_snoc, if_neg hN]
      have hlN : Spec.lastN N l = l := by
        rw [lastN_length] at hN
        exact lastN_of_le (by omega)
      obtain ⟨m', D, e', hm', hD⟩ := move_err hu hpos hcn m m x
      refine fin m' D _ ?_ hm' rfl ?_ ?_
      · rw [e, immRollingMeanStep, Res.val_bind, nextRing_full]
        simp only [hN, decide_false, Bool.false_eq_true, if_false, hcount]
        exact e'
      · rw [hwin, hlN]; linarith
      · have hn : (0 : K) < (Spec.lastN N (l ++ [x])).length := by exact_mod_cast hpos
        rw [hwin, hlN] at hD hn ⊢
        rw [hlN] at ie ib
        rw [hall]
        simp only [List.length_append, List.length_singleton, List.map_append, List.sum_append, List.map_cons, List.map_nil,
          List.sum_cons, List.sum_nil, add_zero, Nat.cast_add, Nat.cast_one] at hD hn ⊢
        rw [two_mul, add_sub_cancel_right] at ie ib
        rw [two_mul, add_sub_cancel_right]
        exact roll_fill_arith hp1 (one_le_pow₀ hg1) hn ie ib hD

/-- **C92** The immediate `rolling_mean` differs from the mean of the window by at most `(1 + u)³ⁿ - 1` times the sum of the
absolute values of all samples pushed and all samples removed, divided by the size of the window. -/
theorem C92_immediate_mean (hu : R.RelErr u) {N : ℕ} (hN0 : 0 < N) (xs : List (Fl R)) (hne : xs ≠ [])
    (hc : R.Counts (min xs.length N)) :
    ∃ m : Fl R, (rollRun .immediate N 0 xs).mean .immediate = .val m ∧
      |m.val - ((xs.drop (xs.length - N)).map Fl.val).sum / (min xs.length N : ℕ)|
        ≤ ((1 + u) ^ (3 * xs.length) - 1) * (((xs.map fun x => |x.val|).sum
            + ((xs.take (xs.length - N)).map fun x => |x.val|).sum) / (min xs.length N : ℕ)) := by
  obtain ⟨m, hm, -, he⟩ := immRollingMean_err hu .immediate hN0 xs hc
  refine ⟨m, hm, ?_⟩
  have hn : (0 : K) < ((min xs.length N : ℕ) : K) := by
    have := List.length_pos_iff.2 hne
    exact_mod_cast (by omega : 0 < min xs.length N)
  rw [lastN_length] at he
  have h1 : (xs.map fun x => |x.val|).sum = ((xs.take (xs.length - N)).map fun x => |x.val|).sum
      + ((xs.drop (xs.length - N)).map fun x => |x.val|).sum := by
    rw [← List.sum_append, ← List.map_append, List.take_append_drop]
  have h2 : 2 * (xs.map fun x => |x.val|).sum - ((Spec.lastN N xs).map fun x => |x.val|).sum
      = (xs.map fun x => |x.val|).sum + ((xs.take (xs.length - N)).map fun x => |x.val|).sum := by
    unfold Spec.lastN; linarith
  rw [h2] at he
  unfold Spec.lastN at he
  generalize ((min xs.length N : ℕ) : K) = n at he hn ⊢
  rw [show m.val - ((xs.drop (xs.length - N)).map Fl.val).sum / n
    = (n * m.val - ((xs.drop (xs.length - N)).map Fl.val).sum) / n by field_simp, abs_div, abs_of_pos hn, ← mul_div_assoc]
  exact div_le_div_of_nonneg_right he hn.le

/-- **C92, the error does not leave with the samples**: with `double`s and a window of two samples, after `10¹⁶, 1, 0, 0, 0` the
window holds only zeros and both means are `-1/2`. -/
theorem C92_drift :
    let R := double
    let xs : List (Fl R) := [10 ^ 16, 1, 0, 0, 0].map (Fl.ofK R)
    (windowResult (rollRun .immediate 2 0 xs).b).map Fl.val = [0, 0] ∧
      Fl.val <$> (rollRun .immediate 2 0 xs).mean .immediate = .val (-1 / 2) ∧
      Fl.val <$> (rollRun .lazy 2 0 xs).mean .lazy = .val (-1 / 2) := by
  decide +kernel

example : ∃ m : Fl double, (rollRun .immediate 2 0 [Fl.ofK double (1 / 10), 1, 3]).mean .immediate = .val m ∧
    |m.val - (([Fl.ofK double (1 / 10), 1, 3].drop (3 - 2)).map Fl.val).sum / (min 3 2 : ℕ)|
      ≤ ((1 + 1 / 2 ^ 53) ^ (3 * 3) - 1) * ((([Fl.ofK double (1 / 10), 1, 3].map fun x => |x.val|).sum
        + (([Fl.ofK double (1 / 10), 1, 3].take (3 - 2)).map fun x => |x.val|).sum) / (min 3 2 : ℕ)) :=
  C92_immediate_mean double_relErr (by norm_num) [Fl.ofK double (1 / 10), 1, 3] (by simp) (double_counts (by norm_num))

example : ∃ m : Fl double, rollingMomentResult (rollRun .lazy 2 0 [Fl.ofK double (1 / 10), 1, 3]).b
      ((rollRun .lazy 2 0 [Fl.ofK double (1 / 10), 1, 3]).moment 3) = .val m ∧
    |m.val - (([Fl.ofK double (1 / 10), 1, 3].drop (3 - 2)).map fun x => x.val ^ 3).sum / (min 3 2 : ℕ)|
      ≤ ((1 + 1 / 2 ^ 53) ^ (2 * 3 + 3) - 1) * (([Fl.ofK double (1 / 10), 1, 3].map fun x => |x.val ^ 3|).sum / (min 3 2 : ℕ)) :=
  C92_moment double_relErr .lazy (by norm_num) (by norm_num) [Fl.ofK double (1 / 10), 1, 3] (by simp)
    (double_counts (by norm_num) _ le_rfl)

end Acc
