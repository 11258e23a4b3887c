import Verif.Proofs.Median

/-!
# Properties of the density based medians (share of C28, C29, C56)

The full claims C28/C29 are false of this code; see the `_ub` and `_not_transparent` theorems.  What is
proved is the first extraction from a set whose overflow bin holds at most half of the samples.
-/

set_option linter.unusedSectionVars false

namespace Acc

variable {K : Type} [Field K] [LinearOrder K] [IsStrictOrderedRing K]

open Spec

theorem fst_take_unit (xs : List K) (c : ℕ) :
    ((xs.map (fun x => (x, (1 : K)))).take c).map Prod.fst = xs.take c := by
  rw [← List.map_take, List.map_map]
  simp [Function.comp_def]

theorem unit_table {lo hi : K} {c B : ℕ} {xs : List K} (hc : 0 < c) (hfull : c ≤ xs.length)
    (hlim : ∀ x ∈ xs, lo ≤ x ∧ x ≤ hi) {a b : K}
    (ha : IsLeast {x | x ∈ xs.take c} a) (hb : IsGreatest {x | x ∈ xs.take c} b) :
    wtable lo hi c B (xs.map (fun x => (x, (1 : K))))
      = mkHist (B + 2) (edge a b B) (fun i => (binCount a b B i xs : K) / (xs.length : K)) := by
  have ht : wtotal (xs.map (fun x => (x, (1 : K)))) = (xs.length : K) := by
    simp [wtotal, Function.comp_def]
  rw [wtable_full (a := a) (b := b) (by rwa [List.length_map]) ?_ (by rwa [fst_take_unit])
    (by rwa [fst_take_unit]) (by rw [ht]; exact Nat.cast_ne_zero.2 (by omega))]
  · simp only [binWeight_unit, ht]
  · intro p hp
    obtain ⟨x, hx, rfl⟩ := List.mem_map.mp hp
    exact hlim x hx

theorem sum_fractions (a b : K) (B k : ℕ) (xs : List K) :
    ∑ j ∈ Finset.range k, (binCount a b B j xs : K) / (xs.length : K)
      = (cumCount a b B k xs : K) / (xs.length : K) := by
  rw [← Finset.sum_div, cumCount_eq]

/-- **C29** (first extraction only; see below for what is missing) `with_density_median` returns the point
at which the piecewise linear distribution function of the histogram reaches one half: if fewer than
half of the `n` samples lie in bins below bin `i` and at least half in bins up to `i`, the result is
`edge i + (n/2 - #below) / #(in bin i) * (edge (i+1) - edge i)`. -/
theorem C29_density_median_partial {lo hi : K} {c B : ℕ} (hc : 0 < c) (hB : 0 < B) (xs : List K)
    (hlim : ∀ x ∈ xs, lo ≤ x ∧ x ≤ hi) (hfull : c ≤ xs.length) {a b : K}
    (ha : IsLeast {x | x ∈ xs.take c} a) (hb : IsGreatest {x | x ∈ xs.take c} b) {i : ℕ}
    (hi' : i ≤ B) (h1 : 2 * cumCount a b B i xs < xs.length)
    (h2 : xs.length ≤ 2 * cumCount a b B (i + 1) xs) :
    (dmedianSet lo hi c B 0).answer (onlyPushes xs) () =
      .val (edge a b B i
        + ((xs.length : K) / 2 - (cumCount a b B i xs : K)) / (binCount a b B i xs : K)
          * (edge a b B (i + 1) - edge a b B i)) := by
  have hn : (0 : K) < (xs.length : K) := Nat.cast_pos.2 (by omega)
  have h1' : (2 : K) * (cumCount a b B i xs : K) < (xs.length : K) := by exact_mod_cast h1
  have h2' : (xs.length : K) ≤ 2 * (cumCount a b B (i + 1) xs : K) := by exact_mod_cast h2
  rw [dmedian_first_query hc hB 0 xs hlim, unit_table hc hfull hlim ha hb,
    body_spec (i := i) _ _ hn (fun j => div_nonneg (Nat.cast_nonneg _) (Nat.cast_nonneg _))
      (by omega)]
  · simp only [Res.val_bind, Res.pure_eq, sum_fractions]
    congr 3
    by_cases h0 : (binCount a b B i xs : K) = 0
    · simp [h0]
    · have := hn.ne'
      field_simp
  · rw [sum_fractions, div_lt_iff₀ hn]; linarith
  · rw [sum_fractions, le_div_iff₀ hn]; linarith

/-- **C29** The value of `C29_density_median_partial` lies between the two edges of bin `i`. -/
theorem C29_density_median_between {a b : K} (hab : a ≤ b) {B : ℕ} (xs : List K) {i : ℕ}
    (h1 : 2 * cumCount a b B i xs < xs.length)
    (h2 : xs.length ≤ 2 * cumCount a b B (i + 1) xs) :
    edge a b B i ≤ edge a b B i
        + ((xs.length : K) / 2 - (cumCount a b B i xs : K)) / (binCount a b B i xs : K)
          * (edge a b B (i + 1) - edge a b B i) ∧
    edge a b B i
        + ((xs.length : K) / 2 - (cumCount a b B i xs : K)) / (binCount a b B i xs : K)
          * (edge a b B (i + 1) - edge a b B i) ≤ edge a b B (i + 1) := by
  have hm := edge_mono hab B (Nat.le_succ i)
  have e : cumCount a b B (i + 1) xs = cumCount a b B i xs + binCount a b B i xs := by
    simp [cumCount, List.range_succ]
  have h1' : (2 : K) * (cumCount a b B i xs : K) < (xs.length : K) := by exact_mod_cast h1
  have h2' : (xs.length : K) ≤ 2 * ((cumCount a b B i xs : K) + (binCount a b B i xs : K)) := by
    rw [e] at h2; exact_mod_cast h2
  have hbp : (0 : K) < (binCount a b B i xs : K) := by
    apply Nat.cast_pos.2; omega
  have ht0 : 0 ≤ ((xs.length : K) / 2 - (cumCount a b B i xs : K)) / (binCount a b B i xs : K) :=
    div_nonneg (by linarith) hbp.le
  have ht1 : ((xs.length : K) / 2 - (cumCount a b B i xs : K)) / (binCount a b B i xs : K) ≤ 1 := by
    rw [div_le_one hbp]; linarith
  constructor <;> nlinarith

/-- **C29** "Below bin `k`" means below its edge: the result of `C29_density_median_partial` is the point
where the distribution function, linearly interpolated between the edges, is one half. -/
theorem C29_cumCount {a b : K} (hab : a ≤ b) {B : ℕ} (hB : 0 < B) {k : ℕ} (h0 : 0 < k)
    (hk : k ≤ B + 1) (xs : List K) :
    cumCount a b B k xs = xs.countP (fun x => decide (x < edge a b B k)) :=
  cumCount_countP hab hB h0 hk xs

/-- **C29** The bin asked for in `C29_density_median_partial` exists as soon as at least half of the
samples are below `b` (the overflow bin holds at most half). -/
theorem C29_density_median_exists {a b : K} {B : ℕ} (xs : List K) (hne : xs ≠ [])
    (h : xs.length ≤ 2 * cumCount a b B (B + 1) xs) :
    ∃ i ≤ B, 2 * cumCount a b B i xs < xs.length ∧
      xs.length ≤ 2 * cumCount a b B (i + 1) xs := by
  have hpos : 0 < xs.length := List.length_pos_of_ne_nil hne
  have hex : ∃ k, xs.length ≤ 2 * cumCount a b B k xs := ⟨_, h⟩
  classical
  have hk := Nat.find_spec hex
  have hmin := fun m => Nat.find_min (H := hex) (m := m)
  have hle : Nat.find hex ≤ B + 1 := Nat.find_min' hex h
  have h0 : Nat.find hex ≠ 0 := by
    intro h0
    rw [h0] at hk
    simp [cumCount] at hk
    exact hne hk
  obtain ⟨j, hj⟩ := Nat.exists_eq_succ_of_ne_zero h0
  refine ⟨j, by omega, ?_, ?_⟩
  · exact not_le.1 (hmin j (by omega))
  · rw [hj] at hk; exact hk

/-- **C29/C56 fails** If more than half of the samples are in the overflow bin, extracting the median is
undefined (the iterator behind the last bin is dereferenced). -/
theorem C29_density_median_overflow_ub {lo hi : K} {c B : ℕ} (hc : 0 < c) (hB : 0 < B) (xs : List K)
    (hlim : ∀ x ∈ xs, lo ≤ x ∧ x ≤ hi) (hfull : c ≤ xs.length) {a b : K}
    (ha : IsLeast {x | x ∈ xs.take c} a) (hb : IsGreatest {x | x ∈ xs.take c} b)
    (h : 2 * cumCount a b B (B + 1) xs < xs.length) :
    (dmedianSet lo hi c B 0).answer (onlyPushes xs) () = .ub := by
  have hn : (0 : K) < (xs.length : K) := Nat.cast_pos.2 (by omega)
  have h' : (2 : K) * (cumCount a b B (B + 1) xs : K) < (xs.length : K) := by exact_mod_cast h
  rw [dmedian_first_query hc hB 0 xs hlim, unit_table hc hfull hlim ha hb,
    body_ub _ _ hn (fun j => div_nonneg (Nat.cast_nonneg _) (Nat.cast_nonneg _))]
  · rfl
  · rw [sum_fractions, div_lt_iff₀ hn]; linarith

/-- **C29/C56 fails** Extracting the median before the density's cache is full is undefined (no
samples: `--begin()`; otherwise the loop runs past the end). -/
theorem C29_density_median_before_full_ub {lo hi : K} {c B : ℕ} (hc : 0 < c) (hB : 0 < B)
    (xs : List K) (hlim : ∀ x ∈ xs, lo ≤ x ∧ x ≤ hi) (hfull : xs.length < c) :
    (dmedianSet lo hi c B 0).answer (onlyPushes xs) () = .ub := by
  rw [dmedian_first_query hc hB 0 xs hlim]
  by_cases hne : xs = []
  · subst hne
    rw [body_begin_ub _ (by simp)]
    rfl
  · have hn : (0 : K) < (xs.length : K) := Nat.cast_pos.2 (List.length_pos_of_ne_nil hne)
    have ht : wtotal (xs.map (fun x => (x, (1 : K)))) = (xs.length : K) := by
      simp [wtotal, Function.comp_def]
    have e : wtable lo hi c B (xs.map (fun x => (x, (1 : K))))
        = mkHist (B + 2) (fun _ => (0 : K)) (fun _ => 0) := by
      rw [wtable, if_pos (by simpa using hfull), ht, fdiv_ne hn.ne', zero_div]
      simp [mkHist]
    rw [e, body_ub _ _ hn (fun _ => le_refl _) (by simp)]
    rfl

/-- **C28 fails** After one extraction the cumulated sum is not reset: if a few more samples are pushed
(so few that the `S` samples found up to the median's bin at the time still are half of all), the next
extraction is undefined.  A set that was not read in between answers normally
(`C28_density_median_not_transparent`). -/
theorem C28_density_median_second_ub {lo hi : K} {c B : ℕ} (hc : 0 < c) (hB : 0 < B)
    (xs ys : List K) (hlim : ∀ x ∈ xs ++ ys, lo ≤ x ∧ x ≤ hi) (hfull : c ≤ xs.length) {a b : K}
    (ha : IsLeast {x | x ∈ xs.take c} a) (hb : IsGreatest {x | x ∈ xs.take c} b) {i : ℕ}
    (hi' : i ≤ B) (h1 : 2 * cumCount a b B i xs < xs.length)
    (h2 : xs.length + ys.length ≤ 2 * cumCount a b B (i + 1) xs) (hys : ys ≠ []) :
    (dmedianSet lo hi c B 0).answer (onlyPushes xs ++ [.query ()] ++ onlyPushes ys) () = .ub := by
  have hn : (0 : K) < (xs.length : K) := Nat.cast_pos.2 (by omega)
  have h1' : (2 : K) * (cumCount a b B i xs : K) < (xs.length : K) := by exact_mod_cast h1
  have h2' : (xs.length : K) + (ys.length : K) ≤ 2 * (cumCount a b B (i + 1) xs : K) := by
    exact_mod_cast h2
  have hlx : ∀ x ∈ xs, lo ≤ x ∧ x ≤ hi := fun x hx => hlim x (by simp [hx])
  obtain ⟨d, e, I⟩ := dmedian_state hc hB 0 xs hlx
  obtain ⟨d', e', I'⟩ := densityQuery_inv d xs I
  have hcnt : d.cnt = xs.length := by simpa [DensitySt.toW] using I.cnt
  have happ : ∀ (s : DMedianSt K) (g k : List (Op K Unit)),
      (dmedianSet lo hi c B 0).exec s (g ++ k)
        = ((dmedianSet lo hi c B 0).exec s g >>= fun t => (dmedianSet lo hi c B 0).exec t k) := by
    intro s g k
    induction g generalizing s with
    | nil => rfl
    | cons o g ih =>
      simp only [List.cons_append, RMachine.exec]
      cases (dmedianSet lo hi c B 0).exec1 s o with
      | val t => simp [ih]
      | _ => rfl
  have hbody := body_spec (n := B + 2) (edge a b B)
    (fun j => (binCount a b B j xs : K) / (xs.length : K)) hn (i := i)
    (fun j => div_nonneg (Nat.cast_nonneg _) (Nat.cast_nonneg _)) (by omega)
    (by rw [sum_fractions, div_lt_iff₀ hn]; linarith)
    (by rw [sum_fractions, le_div_iff₀ hn]
        have : (0 : K) ≤ (ys.length : K) := Nat.cast_nonneg _
        linarith)
  rw [sum_fractions] at hbody
  have hq : ∃ m, (dmedianSet lo hi c B 0).exec ⟨d, 0, true, 0⟩ [.query ()]
      = .val ⟨d', (cumCount a b B (i + 1) xs : K), false, m⟩ := by
    rw [div_mul_cancel₀ _ hn.ne'] at hbody
    simp only [RMachine.exec, RMachine.exec1, dmedianSet, if_true, e', Res.val_bind, hcnt,
      unit_table hc hfull hlx ha hb, hbody, Res.pure_eq]
    exact ⟨_, rfl⟩
  obtain ⟨m, hq⟩ := hq
  obtain ⟨d'', e'', I''⟩ := density_exec hc hB 0 (onlyPushes ys) d' xs I'
    (by rw [pushes_onlyPushes]; exact hlim)
  rw [pushes_onlyPushes] at I''
  have hcnt'' : d''.cnt = xs.length + ys.length := by simpa [DensitySt.toW] using I''.cnt
  unfold RMachine.answer
  rw [happ, happ, e, Res.val_bind, hq, Res.val_bind, dmedian_exec_pushes]
  simp only [e'', Res.val_bind, Res.pure_eq, hys, if_false]
  obtain ⟨d3, e3, _⟩ := densityQuery_inv d'' _ I''
  simp only [dmedianSet, if_true, e3, Res.val_bind, hcnt'']
  rw [body_begin_ub]
  · rfl
  · push_cast
    linarith

/-- **C28 fails**, concrete witness: with the samples 0, 4, 1, 1, 1 and 2 the median is extracted
without trouble at the end (it is `3/2`), but it is undefined if it had been extracted before the
last sample was pushed. -/
theorem C28_density_median_not_transparent :
    (dmedianSet (-100 : ℚ) 100 2 2 0).answer (onlyPushes [0, 4, 1, 1, 1, 2]) () = .val (3 / 2) ∧
    (dmedianSet (-100 : ℚ) 100 2 2 0).answer
      (onlyPushes [0, 4, 1, 1, 1] ++ [.query ()] ++ onlyPushes [2]) () = .ub := by
  constructor
  · rw [C29_density_median_partial (a := 0) (b := 4) (i := 1) (by norm_num) (by norm_num) _
      (by simp; norm_num) (by simp)]
    · norm_num [edge, cumCount, binCount, inBin, List.range_succ]
    · simp [IsLeast, lowerBounds]
    · simp [IsGreatest, upperBounds]
    · norm_num
    · norm_num [edge, cumCount, binCount, inBin, List.range_succ]
    · norm_num [edge, cumCount, binCount, inBin, List.range_succ]
  · refine C28_density_median_second_ub (a := 0) (b := 4) (i := 1) (by norm_num) (by norm_num)
      _ _ (by simp; norm_num) (by simp) ?_ ?_ ?_ ?_ ?_ ?_
    · simp [IsLeast, lowerBounds]
    · simp [IsGreatest, upperBounds]
    · norm_num
    · norm_num [edge, cumCount, binCount, inBin, List.range_succ]
    · norm_num [edge, cumCount, binCount, inBin, List.range_succ]
    · simp

/-- **C28** What does hold: extracting again without a push in between returns the same value. -/
theorem C28_density_median_repeat_partial (lo hi : K) (c B : ℕ) (x0 : K) (h : List (Op K Unit)) (v : K)
    (hv : (dmedianSet lo hi c B x0).answer h () = .val v) :
    (dmedianSet lo hi c B x0).answer (h ++ [.query ()]) () = .val v := by
  unfold RMachine.answer at hv ⊢
  have happ : ∀ (s : DMedianSt K), (dmedianSet lo hi c B x0).exec s (h ++ [.query ()])
      = ((dmedianSet lo hi c B x0).exec s h >>= fun t =>
          (dmedianSet lo hi c B x0).exec t [.query ()]) := by
    induction h with
    | nil => intro s; rfl
    | cons o g ih =>
      clear hv
      intro s
      simp only [List.cons_append, RMachine.exec]
      cases (dmedianSet lo hi c B x0).exec1 s o with
      | val t =>
        simp only [Res.val_bind]
        clear ih
        induction g generalizing t with
        | nil => rfl
        | cons o g ih2 =>
          simp only [List.cons_append, RMachine.exec]
          cases (dmedianSet lo hi c B x0).exec1 t o with
          | val t' => simp [ih2]
          | _ => rfl
      | _ => rfl
  rw [happ]
  cases hs : (dmedianSet lo hi c B x0).exec (dmedianSet lo hi c B x0).init h with
  | val s =>
    rw [hs, Res.val_bind] at hv
    rw [Res.val_bind]
    simp only [RMachine.exec, RMachine.exec1]
    cases hq : (dmedianSet lo hi c B x0).query s () with
    | val r =>
      rw [hq, Res.val_bind, Res.pure_eq, Res.val.injEq] at hv
      simp only [Res.val_bind, Res.pure_eq]
      have hr : r.1.dirty = false ∧ r.1.median = r.2 := by
        simp only [dmedianSet] at hq
        split at hq
        · cases h1 : densityQuery s.dens with
          | val q =>
            rw [h1, Res.val_bind] at hq
            cases h2 : densityMedianBody (s.dens.cnt : K) s.sum q.2 with
            | val m =>
              rw [h2, Res.val_bind, Res.pure_eq, Res.val.injEq] at hq
              subst hq
              exact ⟨rfl, rfl⟩
            | _ => rw [h2] at hq; exact absurd hq (by simp)
          | _ => rw [h1] at hq; exact absurd hq (by simp)
        · rename_i hd
          rw [Res.pure_eq, Res.val.injEq] at hq
          subst hq
          exact ⟨by simpa using hd, rfl⟩
      simp only [dmedianSet, hr.1, hr.2, hv]
      rfl
    | _ => rw [hq] at hv; exact absurd hv (by simp)
  | _ => rw [hs] at hv; exact absurd hv (by simp)

/-! ## The weighted variant -/

/-- **C29** (first extraction only) Weighted median from the density: the point at which the weight
distribution function reaches one half. -/
theorem C29_wdensity_median_partial {lo hi : K} {c B : ℕ} (hc : 0 < c) (hB : 0 < B)
    (ps : List (K × K)) (hlim : ∀ p ∈ ps, lo ≤ p.1 ∧ p.1 ≤ hi) (hfull : c ≤ ps.length)
    (hw : ∀ p ∈ ps, 0 ≤ p.2) (hW : wtotal ps ≠ 0) {a b : K}
    (ha : IsLeast {x | x ∈ (ps.take c).map Prod.fst} a)
    (hb : IsGreatest {x | x ∈ (ps.take c).map Prod.fst} b) {i : ℕ}
    (hi' : i ≤ B) (h1 : cumWeight a b B i ps < 1 / 2) (h2 : 1 / 2 ≤ cumWeight a b B (i + 1) ps) :
    (wdmedianSet lo hi c B 0).answer (onlyPushes ps) () =
      .val (edge a b B i
        + (1 / 2 - cumWeight a b B i ps) / (binWeight a b B i ps / wtotal ps)
          * (edge a b B (i + 1) - edge a b B i)) := by
  have hn : (0 : K) < (ps.length : K) := Nat.cast_pos.2 (by omega)
  have hs : ∀ k, ∑ j ∈ Finset.range k, binWeight a b B j ps / wtotal ps = cumWeight a b B k ps := by
    intro k
    rw [← sum_range_eq]
    rfl
  rw [wdmedian_first_query hc hB 0 ps hlim, wtable_full hfull hlim ha hb hW,
    body_spec (i := i) _ _ hn (fun j => C27_nonneg a b B j ps hw) (by omega)]
  · simp only [Res.val_bind, Res.pure_eq, hs]
  · rw [hs]; exact h1
  · rw [hs]; exact h2

/-- **C29/C56 fails** for the weighted variant too if the overflow bin holds more than half of the
weight. -/
theorem C29_wdensity_median_overflow_ub {lo hi : K} {c B : ℕ} (hc : 0 < c) (hB : 0 < B)
    (ps : List (K × K)) (hlim : ∀ p ∈ ps, lo ≤ p.1 ∧ p.1 ≤ hi) (hfull : c ≤ ps.length)
    (hw : ∀ p ∈ ps, 0 ≤ p.2) (hW : wtotal ps ≠ 0) {a b : K}
    (ha : IsLeast {x | x ∈ (ps.take c).map Prod.fst} a)
    (hb : IsGreatest {x | x ∈ (ps.take c).map Prod.fst} b)
    (h : cumWeight a b B (B + 1) ps < 1 / 2) :
    (wdmedianSet lo hi c B 0).answer (onlyPushes ps) () = .ub := by
  have hn : (0 : K) < (ps.length : K) := Nat.cast_pos.2 (by omega)
  rw [wdmedian_first_query hc hB 0 ps hlim, wtable_full hfull hlim ha hb hW,
    body_ub _ _ hn (fun j => C27_nonneg a b B j ps hw)]
  · rfl
  · rw [← sum_range_eq]
    exact h

/-- **C35** First extraction with unit weights: the weighted median is the unweighted one. -/
theorem C35_density_median {lo hi : K} {c B : ℕ} (hc : 0 < c) (hB : 0 < B) (x0 : K) (xs : List K)
    (hlim : ∀ x ∈ xs, lo ≤ x ∧ x ≤ hi) :
    (wdmedianSet lo hi c B x0).answer (onlyPushes (xs.map (fun x => (x, 1)))) () =
      (dmedianSet lo hi c B x0).answer (onlyPushes xs) () := by
  rw [dmedian_first_query hc hB x0 xs hlim, wdmedian_first_query hc hB x0 _ ?_, List.length_map]
  intro p hp
  obtain ⟨x, hx, rfl⟩ := List.mem_map.mp hp
  exact hlim x hx

example : (wdmedianSet (-100 : ℚ) 100 2 2 0).answer
    (onlyPushes [(0, 1), (4, 1), (1, 3), (2, 1)]) () = .val (3 / 2) := by
  rw [C29_wdensity_median_partial (a := 0) (b := 4) (i := 1) (by norm_num) (by norm_num) _
      (by simp; norm_num) (by simp)]
  · norm_num [edge, cumWeight, binWeight, inBin, List.range_succ, wtotal]
  · simp
  · norm_num [wtotal]
  · simp [IsLeast, lowerBounds]
  · simp [IsGreatest, upperBounds]
  · norm_num
  · norm_num [edge, cumWeight, binWeight, inBin, List.range_succ, wtotal]
  · norm_num [edge, cumWeight, binWeight, inBin, List.range_succ, wtotal]

end Acc
