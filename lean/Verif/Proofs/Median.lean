import Verif.Model.Median
import Verif.Props.Density

set_option linter.unusedSectionVars false

namespace Acc

variable {K : Type} [Field K] [LinearOrder K] [IsStrictOrderedRing K]

open Spec

/-- A histogram given by positions and fractions. -/
def mkHist (n : ℕ) (pos f : ℕ → K) : List (K × Res K) :=
  (List.range n).map (fun i => (pos i, .val (f i)))

theorem mkHist_length (n : ℕ) (pos f : ℕ → K) : (mkHist n pos f).length = n := by simp [mkHist]

theorem getAt_mkHist {n : ℕ} (pos f : ℕ → K) {i : ℕ} (h : i < n) :
    getAt (mkHist n pos f) i = .val (pos i, .val (f i)) := by
  rw [getAt_lt (by simpa [mkHist] using h)]
  simp [mkHist]

theorem getAt_mkHist_ge {n : ℕ} (pos f : ℕ → K) {i : ℕ} (h : n ≤ i) :
    getAt (mkHist n pos f) i = .ub := getAt_ge (by simpa [mkHist] using h)

theorem mkHist_drop {n : ℕ} (pos f : ℕ → K) {k : ℕ} (h : k < n) :
    (mkHist n pos f).drop k = (pos k, .val (f k)) :: (mkHist n pos f).drop (k + 1) := by
  rw [List.drop_eq_getElem_cons (by simpa [mkHist] using h)]
  simp [mkHist]

theorem loop_stop (cnt sum : K) (i : ℕ) (l : List (K × Res K)) (h : ¬ sum < 1 / 2 * cnt) :
    densityMedianLoop cnt sum i l = .val (sum, i) := by
  cases l <;> simp only [densityMedianLoop, h, if_false]

/-- The loop stops behind the first bin at which the cumulated fraction reaches one half. -/
theorem loop_spec {n : ℕ} (pos f : ℕ → K) {cnt : K} (hc : 0 < cnt) (hf : ∀ j, 0 ≤ f j) {i : ℕ}
    (hi : i < n) (h1 : ∑ j ∈ Finset.range i, f j < 1 / 2)
    (h2 : 1 / 2 ≤ ∑ j ∈ Finset.range (i + 1), f j) (d : ℕ) :
    ∀ k, k + d = i + 1 →
    densityMedianLoop cnt ((∑ j ∈ Finset.range k, f j) * cnt) k ((mkHist n pos f).drop k)
      = .val ((∑ j ∈ Finset.range (i + 1), f j) * cnt, i + 1) := by
  induction d with
  | zero =>
    intro k hk
    obtain rfl : k = i + 1 := by omega
    exact loop_stop _ _ _ _ (not_lt.2 (mul_le_mul_of_nonneg_right h2 hc.le))
  | succ d ih =>
    intro k hk
    have hlt : (∑ j ∈ Finset.range k, f j) < 1 / 2 :=
      lt_of_le_of_lt (Finset.sum_le_sum_of_subset_of_nonneg
        (Finset.range_mono (by omega)) (fun j _ _ => hf j)) h1
    rw [mkHist_drop pos f (by omega)]
    simp only [densityMedianLoop]
    rw [if_pos (mul_lt_mul_of_pos_right hlt hc), Res.val_bind, ← add_mul, ← Finset.sum_range_succ]
    exact ih (k + 1) (by omega)

/-- The loop runs past the end if the histogram holds less than one half. -/
theorem loop_ub {n : ℕ} (pos f : ℕ → K) {cnt : K} (hc : 0 < cnt) (hf : ∀ j, 0 ≤ f j)
    (h : ∑ j ∈ Finset.range n, f j < 1 / 2) (d : ℕ) :
    ∀ k, k + d = n →
    densityMedianLoop cnt ((∑ j ∈ Finset.range k, f j) * cnt) k ((mkHist n pos f).drop k)
      = .ub := by
  induction d with
  | zero =>
    intro k hk
    obtain rfl : k = n := by omega
    rw [List.drop_eq_nil_of_le (by simp [mkHist])]
    simp only [densityMedianLoop]
    rw [if_pos (mul_lt_mul_of_pos_right h hc)]
  | succ d ih =>
    intro k hk
    have hlt : (∑ j ∈ Finset.range k, f j) < 1 / 2 :=
      lt_of_le_of_lt (Finset.sum_le_sum_of_subset_of_nonneg
        (Finset.range_mono (by omega)) (fun j _ _ => hf j)) h
    rw [mkHist_drop pos f (by omega)]
    simp only [densityMedianLoop]
    rw [if_pos (mul_lt_mul_of_pos_right hlt hc), Res.val_bind, ← add_mul, ← Finset.sum_range_succ]
    exact ih (k + 1) (by omega)

theorem body_spec {n : ℕ} (pos f : ℕ → K) {cnt : K} (hc : 0 < cnt) (hf : ∀ j, 0 ≤ f j) {i : ℕ}
    (hi : i + 1 < n) (h1 : ∑ j ∈ Finset.range i, f j < 1 / 2)
    (h2 : 1 / 2 ≤ ∑ j ∈ Finset.range (i + 1), f j) :
    densityMedianBody cnt 0 (mkHist n pos f)
      = .val ((∑ j ∈ Finset.range (i + 1), f j) * cnt,
          pos i + (1 / 2 - ∑ j ∈ Finset.range i, f j) / f i * (pos (i + 1) - pos i)) := by
  have hfi : 0 < f i := by
    rw [Finset.sum_range_succ] at h2
    linarith
  have hl := loop_spec (n := n) pos f hc hf (by omega) h1 h2 (i + 1) 0 (by omega)
  simp only [Finset.range_zero, Finset.sum_empty, zero_mul, List.drop_zero] at hl
  unfold densityMedianBody
  rw [hl]
  simp only [Res.val_bind]
  rw [getAt_mkHist pos f (by omega), getAt_mkHist pos f hi]
  simp only [Res.val_bind]
  rw [fdiv_ne (mul_ne_zero hfi.ne' hc.ne')]
  simp only [Res.val_bind, Res.pure_eq, Finset.sum_range_succ]
  congr 2
  have := hfi.ne'
  have := hc.ne'
  field_simp
  ring

theorem body_ub {n : ℕ} (pos f : ℕ → K) {cnt : K} (hc : 0 < cnt) (hf : ∀ j, 0 ≤ f j)
    (h : ∑ j ∈ Finset.range n, f j < 1 / 2) :
    densityMedianBody cnt 0 (mkHist (n + 1) pos f) = .ub := by
  unfold densityMedianBody
  by_cases h2 : ∑ j ∈ Finset.range (n + 1), f j < 1 / 2
  · have hl := loop_ub (n := n + 1) pos f hc hf h2 (n + 1) 0 (by omega)
    simp only [Finset.range_zero, Finset.sum_empty, zero_mul, List.drop_zero] at hl
    rw [hl]
    rfl
  · have h2 := not_lt.1 h2
    have hl := loop_spec (n := n + 1) pos f hc hf (by omega) h h2 (n + 1) 0 (by omega)
    simp only [Finset.range_zero, Finset.sum_empty, zero_mul, List.drop_zero] at hl
    have hfi : 0 < f n := by
      rw [Finset.sum_range_succ] at h2
      linarith
    rw [hl]
    simp only [Res.val_bind]
    rw [getAt_mkHist pos f (by omega), getAt_mkHist_ge pos f (le_refl _)]
    simp only [Res.val_bind]
    rw [fdiv_ne (mul_ne_zero hfi.ne' hc.ne')]
    rfl

theorem body_begin_ub {cnt sum : K} (hist : List (K × Res K)) (h : 1 / 2 * cnt ≤ sum) :
    densityMedianBody cnt sum hist = .ub := by
  unfold densityMedianBody
  rw [loop_stop _ _ _ _ (not_lt.2 h)]
  rfl

/-! ## Executions of the sets -/

theorem dmedian_exec_pushes (lo hi : K) (c B : ℕ) (x0 : K) (s : DMedianSt K) (xs : List K) :
    (dmedianSet lo hi c B x0).exec s (onlyPushes xs) =
      ((densitySet lo hi c B x0).exec s.dens (onlyPushes (Q := Unit) xs) >>= fun d =>
        pure { s with dens := d, dirty := if xs = [] then s.dirty else true }) := by
  induction xs generalizing s with
  | nil => rfl
  | cons x xs ih =>
    simp only [onlyPushes, List.map_cons, RMachine.exec, RMachine.exec1]
    change ((densityPush s.dens x >>= _) >>= _) = ((densityPush s.dens x >>= _) >>= _)
    cases densityPush s.dens x with
    | val d =>
      simp only [Res.val_bind, Res.pure_eq]
      refine (ih _).trans ?_
      simp only [onlyPushes]
      congr 1
      funext d
      by_cases h : xs = [] <;> simp [h]
    | _ => rfl

theorem wdmedian_exec_pushes (lo hi : K) (c B : ℕ) (x0 : K) (s : WDMedianSt K)
    (ps : List (K × K)) :
    (wdmedianSet lo hi c B x0).exec s (onlyPushes ps) =
      ((wdensitySet lo hi c B x0).exec s.dens (onlyPushes (Q := Unit) ps) >>= fun d =>
        pure { s with dens := d, dirty := if ps = [] then s.dirty else true }) := by
  induction ps generalizing s with
  | nil => rfl
  | cons x xs ih =>
    simp only [onlyPushes, List.map_cons, RMachine.exec, RMachine.exec1]
    change ((wdensityPush s.dens x >>= _) >>= _) = ((wdensityPush s.dens x >>= _) >>= _)
    cases wdensityPush s.dens x with
    | val d =>
      simp only [Res.val_bind, Res.pure_eq]
      refine (ih _).trans ?_
      simp only [onlyPushes]
      congr 1
      funext d
      by_cases h : xs = [] <;> simp [h]
    | _ => rfl

/-- State of the median set after pushing `xs`. -/
theorem dmedian_state {lo hi : K} {c B : ℕ} (hc : 0 < c) (hB : 0 < B) (x0 : K) (xs : List K)
    (hlim : ∀ x ∈ xs, lo ≤ x ∧ x ≤ hi) :
    ∃ d, (dmedianSet lo hi c B x0).exec (dmedianSet lo hi c B x0).init (onlyPushes xs)
        = .val ⟨d, x0, true, 0⟩ ∧
      d.toW.Inv lo hi c B (xs.map (fun x => (x, (1 : K)))) := by
  obtain ⟨d, e, I⟩ := density_exec hc hB x0 (onlyPushes xs) _ [] (densityInit_inv lo hi hc x0)
    (by rw [pushes_onlyPushes]; simpa using hlim)
  rw [pushes_onlyPushes, List.nil_append] at I
  refine ⟨d, ?_, I⟩
  rw [dmedian_exec_pushes]
  have e' : (densitySet lo hi c B x0).exec (dmedianSet lo hi c B x0).init.dens (onlyPushes xs)
    = .val d := e
  rw [e', Res.val_bind]
  simp [dmedianSet]

theorem dmedian_first_query {lo hi : K} {c B : ℕ} (hc : 0 < c) (hB : 0 < B) (x0 : K) (xs : List K)
    (hlim : ∀ x ∈ xs, lo ≤ x ∧ x ≤ hi) :
    (dmedianSet lo hi c B x0).answer (onlyPushes xs) () =
      (densityMedianBody (xs.length : K) x0 (wtable lo hi c B (xs.map (fun x => (x, (1 : K)))))
        >>= fun m => pure m.2) := by
  obtain ⟨d, e, I⟩ := dmedian_state hc hB x0 xs hlim
  unfold RMachine.answer
  rw [e, Res.val_bind]
  obtain ⟨d', e', I'⟩ := densityQuery_inv d xs I
  have hcnt : d.cnt = xs.length := by
    have := I.cnt
    simpa [DensitySt.toW] using this
  simp only [dmedianSet, if_true, e', Res.val_bind, hcnt]
  cases densityMedianBody (xs.length : K) x0
    (wtable lo hi c B (xs.map (fun x => (x, (1 : K))))) <;> rfl

theorem wdmedian_first_query {lo hi : K} {c B : ℕ} (hc : 0 < c) (hB : 0 < B) (x0 : K)
    (ps : List (K × K)) (hlim : ∀ p ∈ ps, lo ≤ p.1 ∧ p.1 ≤ hi) :
    (wdmedianSet lo hi c B x0).answer (onlyPushes ps) () =
      (densityMedianBody (ps.length : K) x0 (wtable lo hi c B ps) >>= fun m => pure m.2) := by
  obtain ⟨d, e, I⟩ := wdensity_exec hc hB x0 (onlyPushes ps) _ [] (wdensityInit_inv lo hi hc x0)
    (by rw [pushes_onlyPushes]; simpa using hlim)
  rw [pushes_onlyPushes, List.nil_append] at I
  unfold RMachine.answer
  rw [wdmedian_exec_pushes]
  have e' : (wdensitySet lo hi c B x0).exec (wdmedianSet lo hi c B x0).init.dens (onlyPushes ps)
    = .val d := e
  rw [e', Res.val_bind, Res.pure_eq, Res.val_bind]
  obtain ⟨d', e'', I'⟩ := wdensityQuery_inv I
  have hd : (if ps = [] then (wdmedianSet lo hi c B x0).init.dirty else true) = true := by
    simp [wdmedianSet]
  simp only [hd]
  simp only [wdmedianSet, if_true, e'', Res.val_bind, I.cnt]
  cases densityMedianBody (ps.length : K) x0 (wtable lo hi c B ps) <;> rfl

theorem cumCount_eq (a b : K) (B k : ℕ) (xs : List K) :
    (cumCount a b B k xs : K) = ∑ j ∈ Finset.range k, (binCount a b B j xs : K) := by
  unfold cumCount
  rw [sum_range_eq]
  push_cast
  rfl

/-- `cumCount` is the number of samples below the edge. -/
theorem cumCount_countP {a b : K} (hab : a ≤ b) {B : ℕ} (hB : 0 < B) {k : ℕ} (h0 : 0 < k)
    (hk : k ≤ B + 1) (xs : List K) :
    cumCount a b B k xs = xs.countP (fun x => decide (x < edge a b B k)) := by
  unfold cumCount
  rw [sum_range_eq]
  induction xs with
  | nil => simp [binCount]
  | cons x xs ih =>
    have e : ∀ j, binCount a b B j (x :: xs)
        = binCount a b B j xs + if inBin a b B j x then 1 else 0 := by
      intro j
      unfold binCount
      by_cases h : inBin a b B j x <;> simp [h]
    simp only [e, Finset.sum_add_distrib, ih, List.countP_cons]
    congr 1
    obtain ⟨m, ⟨hm, hin⟩, huniq⟩ := C26_partition hab hB x
    by_cases hx : x < edge a b B k
    · have hmk : m < k := by
        by_contra hcon
        have := inBin_lower hB hin (by omega)
        have h3 := edge_mono hab B (show k ≤ m by omega)
        exact absurd (lt_of_lt_of_le hx (le_trans h3 this)) (lt_irrefl _)
      rw [Finset.sum_eq_single m]
      · simp [hin, hx]
      · intro j hj hne
        rw [if_neg]
        intro h
        exact hne (huniq j ⟨by simp at hj; omega, h⟩)
      · intro h
        simp at h; omega
    · rw [Finset.sum_eq_zero]
      · simp [hx]
      · intro j hj
        rw [if_neg]
        intro h
        simp only [Finset.mem_range] at hj
        have h1 := inBin_upper h (by omega)
        have h3 := edge_mono hab B (show j + 1 ≤ k by omega)
        exact hx (lt_of_lt_of_le h1 h3)

theorem wtable_full {lo hi : K} {c B : ℕ} {ps : List (K × K)} (hfull : c ≤ ps.length)
    (hlim : ∀ p ∈ ps, lo ≤ p.1 ∧ p.1 ≤ hi) {a b : K}
    (ha : IsLeast {x | x ∈ (ps.take c).map Prod.fst} a)
    (hb : IsGreatest {x | x ∈ (ps.take c).map Prod.fst} b) (hw : wtotal ps ≠ 0) :
    wtable lo hi c B ps
      = mkHist (B + 2) (edge a b B) (fun i => binWeight a b B i ps / wtotal ps) := by
  rw [wtable, if_neg (by omega), cacheMin_unique (fun p hp => (hlim p hp).2) ha,
    cacheMax_unique (fun p hp => (hlim p hp).1) hb]
  simp only [fdiv_ne hw, mkHist]

end Acc
