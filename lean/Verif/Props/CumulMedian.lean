import Verif.Props.WPSquare
import Verif.Model.Median

/-!
# The medians read off the P-square cumulative distribution (C29, share of C28 and C56)

The code locates the first point `i` of the distribution with `F i ≥ 1/2` and interpolates, but between
the heights of the points `i` and `i + 1` instead of `i - 1` and `i`.
-/

set_option linter.unusedSectionVars false

namespace Acc

variable {K : Type} [Field K] [LinearOrder K] [IsStrictOrderedRing K]

open Spec

/-! ## The search -/

theorem cumulMedianLoop_eq {pts : List (K × K)} {i : ℕ} (hi : i < pts.length)
    (h1 : ∀ j (hj : j < i), (pts[j]'(by omega)).2 < 1 / 2) (h2 : 1 / 2 ≤ pts[i].2) (k : ℕ) :
    cumulMedianLoop k (pts.map fun p => (p.1, .val p.2)) = .val (k + i) := by
  induction pts generalizing i k with
  | nil => simp at hi
  | cons a t ih =>
    cases i with
    | zero =>
      simp only [List.getElem_cons_zero] at h2
      simp only [List.map_cons, cumulMedianLoop, if_neg (not_lt.2 h2), Nat.add_zero]
    | succ i =>
      have h0 := h1 0 (by omega)
      simp only [List.getElem_cons_zero] at h0
      simp only [List.map_cons, cumulMedianLoop, if_pos h0]
      rw [ih (by simpa using hi) (fun j hj => by simpa using h1 (j + 1) (by omega)) (by simpa using h2)]
      congr 1
      omega

/-- What the code computes from a distribution with strictly increasing values. -/
theorem cumulMedianBody_eq {pts : List (K × K)} (hF : (pts.map Prod.snd).Pairwise (· < ·)) {i : ℕ}
    (hi : i + 2 < pts.length) (h1 : pts[i].2 < 1 / 2) (h2 : 1 / 2 ≤ pts[i + 1].2) :
    cumulMedianBody (pts.map fun p => (p.1, .val p.2))
      = .val (pts[i + 1].1 * ((pts[i + 1].2 - 1 / 2) / (pts[i + 1].2 - pts[i].2))
          + pts[i + 2].1 * (1 - (pts[i + 1].2 - 1 / 2) / (pts[i + 1].2 - pts[i].2))) := by
  rw [List.pairwise_map] at hF
  have hpw := List.pairwise_iff_getElem.mp hF
  have hloop := cumulMedianLoop_eq (i := i + 1) (by omega) (fun j hj => by
    rcases Nat.lt_or_eq_of_le (show j ≤ i by omega) with hlt | heq
    · exact lt_trans (hpw j i (by omega) (by omega) hlt) h1
    · simpa [heq] using h1) h2 0
  unfold cumulMedianBody
  rw [hloop, Res.val_bind, Nat.zero_add, getAt_lt (by simp; omega), Res.val_bind]
  simp only
  rw [getAt_lt (by simp; omega), Res.val_bind, getAt_lt (by simp; omega), Res.val_bind]
  simp only [List.getElem_map, Res.val_bind]
  rw [fdiv_ne, Res.val_bind, Res.pure_eq]
  have := hpw i (i + 1) (by omega) (by omega) (by omega)
  intro h
  linarith

theorem cumulMedianBody_first {pts : List (K × K)} (h0 : 0 < pts.length) (h : (1 / 2 : K) ≤ pts[0].2) :
    cumulMedianBody (pts.map fun p => (p.1, .val p.2)) = .ub := by
  unfold cumulMedianBody
  rw [cumulMedianLoop_eq (i := 0) h0 (by omega) h 0, Res.val_bind, getAt_lt (by simpa using h0),
    Res.val_bind]

theorem cumulMedianBody_last {pts : List (K × K)} (hF : (pts.map Prod.snd).Pairwise (· < ·)) {i : ℕ}
    (hi : i + 2 = pts.length) (h1 : pts[i].2 < 1 / 2) :
    cumulMedianBody (pts.map fun p => (p.1, .val p.2)) = .ub := by
  rw [List.pairwise_map] at hF
  have hpw := List.pairwise_iff_getElem.mp hF
  have hlow : ∀ j (hj : j < i + 1), (pts[j]'(by omega)).2 < 1 / 2 := fun j hj => by
    rcases Nat.lt_or_eq_of_le (show j ≤ i by omega) with hlt | heq
    · exact lt_trans (hpw j i (by omega) (by omega) hlt) h1
    · simpa [heq] using h1
  by_cases h2 : (1 / 2 : K) ≤ (pts[i + 1]'(by omega)).2
  · unfold cumulMedianBody
    rw [cumulMedianLoop_eq (i := i + 1) (by omega) hlow h2 0, Res.val_bind, Nat.zero_add,
      getAt_lt (by simp; omega), Res.val_bind]
    simp only
    rw [getAt_lt (by simp; omega), Res.val_bind]
    simp [getAt, show ¬ i + 1 + 1 < pts.length by omega]
  · have hall : ∀ (l : List (K × K)) (k : ℕ), (∀ p ∈ l, p.2 < 1 / 2) →
        cumulMedianLoop k (l.map fun p => (p.1, Res.val p.2)) = .ub := by
      intro l
      induction l with
      | nil => intro k _; rfl
      | cons a t ih =>
        intro k hl
        simp only [List.map_cons, cumulMedianLoop, if_pos (hl a (by simp))]
        exact ih _ fun p hp => hl p (by simp [hp])
    unfold cumulMedianBody
    rw [hall pts 0]
    · rfl
    · intro p hp
      obtain ⟨j, hj, rfl⟩ := List.mem_iff_getElem.1 hp
      rcases Nat.lt_or_ge j (i + 1) with hlt | hge
      · exact hlow j hlt
      · have : j = i + 1 := by omega
        subst this
        exact not_le.1 h2

/-! ## The sets -/

theorem cmedian_answer {b : ℕ} (hb : 0 < b) (h : List (Op K Unit)) {s : CMedianSt K}
    (e : (cmedianSet b).exec (cmedianSet b).init h = .val s) :
    (cmedianSet b).answer h ()
      = ((psqCumulSet b).answer (onlyPushes (pushes h)) () >>= cumulMedianBody) := by
  have I := RMachine.exec_inv_of_val (cmedianSet (K := K) b)
    (fun s xs => s.dist.Inv b xs ∧ (s.dirty = false → ∃ r, psqHist s.dist.m.heights s.dist.m.pos
      (s.dist.m.cnt : K) = .val r ∧ cumulMedianBody r = .val s.median))
    (fun s xs x s' I e => by
      obtain ⟨m, e1, I1⟩ := psqPush_inv (show 2 ≤ b + 1 by omega) (cellFractions b) s.dist.m xs x I.1.m
      have hp : (psqCumulSet b).push s.dist x = .val ⟨m, s.dist.hist, true⟩ := by
        simp only [psqCumulSet, cumulIncr_eq]
        rw [e1]; rfl
      simp only [cmedianSet] at e
      rw [hp, Res.val_bind, Res.pure_eq, Res.val.injEq] at e
      subst e
      exact ⟨⟨I1, fun h => by simp at h⟩, fun h => by simp at h⟩)
    (fun s xs q s' r I e => by
      obtain ⟨d, r', e', I', hm, hr⟩ := psqCumul_query_inv I.1
      simp only [cmedianSet] at e
      by_cases hd : s.dirty = true
      · rw [if_pos hd, e', Res.val_bind] at e
        simp only at e
        cases hb : cumulMedianBody r' with
        | val v =>
          rw [hb, Res.val_bind, Res.pure_eq, Res.val.injEq, Prod.mk.injEq] at e
          rw [← e.1]
          refine ⟨I', fun _ => ⟨r', ?_, hb⟩⟩
          rw [← hr, hm]
        | _ => rw [hb] at e; cases e
      · rw [if_neg hd, Res.pure_eq, Res.val.injEq, Prod.mk.injEq] at e
        rw [← e.1]
        exact I)
    (cmedianSet b).init [] ⟨by
      have := psqCumul_exec (K := K) hb []
      obtain ⟨t, f, J⟩ := this
      simp only [RMachine.exec, Res.val.injEq] at f
      subst f
      exact J, fun h => by simp [cmedianSet] at h⟩ h e
  rw [List.nil_append] at I
  obtain ⟨t, f, J⟩ := psqCumul_exec hb (onlyPushes (Q := Unit) (pushes h))
  rw [pushes_onlyPushes] at J
  obtain ⟨t', r, f', -, -, hr⟩ := psqCumul_query_inv J
  have hans : (psqCumulSet b).answer (onlyPushes (pushes h)) () = .val r := by
    unfold RMachine.answer
    simp only [f, Res.val_bind, f', Res.pure_eq]
  obtain ⟨u1, u2, u3⟩ := psqInv_unique I.1.m J.m
  rw [hans, Res.val_bind]
  unfold RMachine.answer
  rw [e, Res.val_bind]
  obtain ⟨d, r', e', -, -, hr'⟩ := psqCumul_query_inv I.1
  have hrr : r' = r := by
    rw [u1, u2, u3, hr, Res.val.injEq] at hr'
    exact hr'.symm
  subst hrr
  simp only [cmedianSet]
  by_cases hd : s.dirty = true
  · rw [if_pos hd, e', Res.val_bind]
    simp only
    cases cumulMedianBody r' <;> rfl
  · rw [if_neg hd]
    obtain ⟨r'', e1, e2⟩ := I.2 (by simpa using hd)
    rw [hr', Res.val.injEq] at e1
    subst e1
    rw [e2]
    rfl

theorem cmedian_pushes {b : ℕ} (hb : 0 < b) (xs : List K) :
    ∃ s, (cmedianSet b).exec (cmedianSet b).init (onlyPushes xs) = .val s := by
  have key : ∀ (xs : List K) (d : PsqCumulSt K) (dirty : Bool) (m : K) (ys : List K), d.Inv b ys →
      ∃ s, (cmedianSet b).exec ⟨d, dirty, m⟩ (onlyPushes xs) = .val s := by
    intro xs
    induction xs with
    | nil => intro d dirty m ys _; exact ⟨_, rfl⟩
    | cons x xs ih =>
      intro d dirty m ys I
      obtain ⟨m', e1, I1⟩ := psqPush_inv (show 2 ≤ b + 1 by omega) (cellFractions b) d.m ys x I.m
      have hp : (psqCumulSet b).push d x = .val ⟨m', d.hist, true⟩ := by
        simp only [psqCumulSet, cumulIncr_eq]
        rw [e1]; rfl
      obtain ⟨s, es⟩ := ih ⟨m', d.hist, true⟩ true m (ys ++ [x]) ⟨I1, fun h => by simp at h⟩
      refine ⟨s, ?_⟩
      simp only [onlyPushes, List.map_cons, RMachine.exec, RMachine.exec1]
      have : (cmedianSet b).push ⟨d, dirty, m⟩ x = .val ⟨⟨m', d.hist, true⟩, true, m⟩ := by
        simp only [cmedianSet]
        rw [hp]; rfl
      rw [this, Res.val_bind]
      exact es
  obtain ⟨t, f, J⟩ := psqCumul_exec (K := K) hb []
  simp only [RMachine.exec, Res.val.injEq] at f
  subst f
  exact key xs _ _ _ _ J

theorem wcmedian_answer {b : ℕ} (hb : 0 < b) (h : List (Op (K × K) Unit)) {s : WCMedianSt K}
    (e : (wcmedianSet b).exec (wcmedianSet b).init h = .val s) :
    (wcmedianSet b).answer h ()
      = ((wpsqCumulSet b).answer (onlyPushes (pushes h)) () >>= cumulMedianBody) := by
  have hpush : ∀ (d : WPsqCumulSt K) (ps : List (K × K)) (x : K × K), d.Inv b ps →
      ∃ d', (wpsqCumulSet b).push d x = .val d' ∧ d'.Inv b (ps ++ [x]) := by
    intro d ps x I
    obtain ⟨m, e, W⟩ := wpsqPush_wf (desired := fun n0 W => .val (wpsqCumulDes b n0 W))
        (show 2 ≤ b + 1 by omega) (Nat.le_succ b)
        (fun n0 W => by obtain ⟨t, ht⟩ := wcumulDes_eq b n0 W; exact ⟨t, by rw [ht]⟩) I.wf x
    refine ⟨⟨m, d.hist, true⟩, ?_, ?_, W, fun h => by simp at h⟩
    · simp only [wpsqCumulSet]; rw [e]; rfl
    · rw [wpsqRun_snoc, I.run, Res.val_bind, e]
  have I := RMachine.exec_inv_of_val (wcmedianSet (K := K) b)
    (fun s xs => s.dist.Inv b xs ∧ (s.dirty = false → ∃ r, psqHist s.dist.m.heights s.dist.m.pos
      s.dist.m.wsum = .val r ∧ cumulMedianBody r = .val s.median))
    (fun s xs x s' I e => by
      obtain ⟨d', e1, I1⟩ := hpush s.dist xs x I.1
      simp only [wcmedianSet] at e
      rw [e1, Res.val_bind, Res.pure_eq, Res.val.injEq] at e
      subst e
      exact ⟨I1, fun h => by simp at h⟩)
    (fun s xs q s' r I e => by
      obtain ⟨d, r', e', I', hm, hr⟩ := wpsqCumul_query I.1
      simp only [wcmedianSet] at e
      by_cases hd : s.dirty = true
      · rw [if_pos hd, e', Res.val_bind] at e
        simp only at e
        cases hb : cumulMedianBody r' with
        | val v =>
          rw [hb, Res.val_bind, Res.pure_eq, Res.val.injEq, Prod.mk.injEq] at e
          rw [← e.1]
          refine ⟨I', fun _ => ⟨r', ?_, hb⟩⟩
          rw [← hr, hm]
        | _ => rw [hb] at e; cases e
      · rw [if_neg hd, Res.pure_eq, Res.val.injEq, Prod.mk.injEq] at e
        rw [← e.1]
        exact I)
    (wcmedianSet b).init [] ⟨by
      obtain ⟨t, f, J⟩ := wpsqCumul_exec (K := K) hb []
      simp only [RMachine.exec, Res.val.injEq] at f
      subst f
      exact J, fun h => by simp [wcmedianSet] at h⟩ h e
  rw [List.nil_append] at I
  obtain ⟨t, f, J⟩ := wpsqCumul_exec hb (onlyPushes (Q := Unit) (pushes h))
  rw [pushes_onlyPushes] at J
  obtain ⟨t', r, f', -, -, hr⟩ := wpsqCumul_query J
  have hans : (wpsqCumulSet b).answer (onlyPushes (pushes h)) () = .val r := by
    unfold RMachine.answer
    simp only [f, Res.val_bind, f', Res.pure_eq]
  have hm : s.dist.m = t.m := by
    have := J.run
    rw [I.1.run, Res.val.injEq] at this
    exact this
  rw [hans, Res.val_bind]
  unfold RMachine.answer
  rw [e, Res.val_bind]
  obtain ⟨d, r', e', -, -, hr'⟩ := wpsqCumul_query I.1
  have hrr : r' = r := by
    rw [hm, hr, Res.val.injEq] at hr'
    exact hr'.symm
  subst hrr
  simp only [wcmedianSet]
  by_cases hd : s.dirty = true
  · rw [if_pos hd, e', Res.val_bind]
    simp only
    cases cumulMedianBody r' <;> rfl
  · rw [if_neg hd]
    obtain ⟨r'', e1, e2⟩ := I.2 (by simpa using hd)
    rw [hr', Res.val.injEq] at e1
    subst e1
    rw [e2]
    rfl

/-- **C29, partial** `with_p_square_cumulative_distribution_median`: let `pts` be the points of the
estimated distribution and `i + 1` the first one reaching 1/2, an inner one.  The result is the
interpolation between the heights of the points `i + 1` and `i + 2`.  It should be between `i` and
`i + 1`: the point where the distribution reaches 1/2 lies at or below the result.
Missing: the result is not the half-mass point (`C29_cumul_median_wrong`) and does not exist when the first
or the last point is the first one to reach 1/2 (`C29_cumul_median_ub`). -/
theorem C29_cumul_median_partial {b : ℕ} (hb : 0 < b) (h : List (Op K Unit))
    (hn : b + 1 ≤ (pushes h).length) {s : CMedianSt K}
    (e : (cmedianSet b).exec (cmedianSet b).init h = .val s) :
    ∃ pts : List (K × K),
      (psqCumulSet b).answer (onlyPushes (pushes h)) () = .val (pts.map fun p => (p.1, .val p.2)) ∧
      pts.length = b + 1 ∧
      ∀ i (hi : i + 2 < pts.length), pts[i].2 < 1 / 2 → 1 / 2 ≤ pts[i + 1].2 →
        ∃ t, 0 ≤ t ∧ t ≤ 1 ∧ (1 - t) * pts[i + 1].2 + t * pts[i].2 = 1 / 2 ∧
          (cmedianSet b).answer h () = .val ((1 - t) * pts[i + 2].1 + t * pts[i + 1].1) ∧
          (1 - t) * pts[i + 1].1 + t * pts[i].1 ≤ (1 - t) * pts[i + 2].1 + t * pts[i + 1].1 := by
  obtain ⟨pts, ea, hl, hx, hF, -⟩ := C23_distribution hb (onlyPushes (Q := Unit) (pushes h))
    (by rwa [pushes_onlyPushes])
  refine ⟨pts, ea, hl, fun i hi h1 h2 => ?_⟩
  have hpw := List.pairwise_iff_getElem.mp (List.pairwise_map.1 hF) i (i + 1) (by omega) (by omega)
    (by omega)
  have hpx := List.pairwise_iff_getElem.mp (List.pairwise_map.1 hx)
  have hd : 0 < pts[i + 1].2 - pts[i].2 := by linarith
  have t0 : 0 ≤ (pts[i + 1].2 - 1 / 2) / (pts[i + 1].2 - pts[i].2) :=
    div_nonneg (by linarith) hd.le
  have t1 : (pts[i + 1].2 - 1 / 2) / (pts[i + 1].2 - pts[i].2) ≤ 1 := by
    rw [div_le_one hd]; linarith
  refine ⟨_, t0, t1, ?_, ?_, ?_⟩
  · field_simp
    ring
  · rw [cmedian_answer hb h e, ea, Res.val_bind, cumulMedianBody_eq hF hi h1 h2]
    congr 1
    ring
  · have a1 := hpx i (i + 1) (by omega) (by omega) (by omega)
    have a2 := hpx (i + 1) (i + 2) (by omega) (by omega) (by omega)
    have := mul_le_mul_of_nonneg_left a1 t0
    have := mul_le_mul_of_nonneg_left a2 (show 0 ≤ 1 - (pts[i + 1].2 - 1 / 2) / (pts[i + 1].2 - pts[i].2)
      by linarith)
    linarith

/-- **C29 fails** Three cells, samples 0, 1, 2, 3: the distribution reaches 1/2 exactly at the height 1,
the code returns 2. -/
theorem C29_cumul_median_wrong :
    (psqCumulSet 3).answer (onlyPushes [0, 1, 2, (3 : ℚ)]) ()
      = .val [(0, .val (1 / 4)), (1, .val (1 / 2)), (2, .val (3 / 4)), (3, .val 1)] ∧
    (cmedianSet 3).answer (onlyPushes [0, 1, 2, (3 : ℚ)]) () = .val 2 := by
  decide +kernel

/-- **C29/C56 fails** With a single cell, every extraction is undefined. -/
theorem C29_cumul_median_ub (xs : List K) (hn : 2 ≤ xs.length) :
    (cmedianSet 1).answer (onlyPushes xs) () = .ub := by
  obtain ⟨s, e⟩ := cmedian_pushes (K := K) one_pos xs
  rw [cmedian_answer one_pos _ e]
  obtain ⟨pts, ea, hl, -, hF, -⟩ := C23_distribution (K := K) one_pos
    (onlyPushes (Q := Unit) (pushes (onlyPushes (Q := Unit) xs))) (by simpa using hn)
  rw [ea, Res.val_bind]
  by_cases h0 : (1 / 2 : K) ≤ (pts[0]'(by omega)).2
  · exact cumulMedianBody_first (by omega) h0
  · exact cumulMedianBody_last hF (i := 0) (by omega) (not_le.1 h0)

/-- **C29/C56 fails** In general: undefined when more than half of the mass is in the last cell. -/
theorem C29_cumul_median_last_ub {b : ℕ} (hb : 0 < b) (xs : List K) (hn : b + 1 ≤ xs.length)
    {pts : List (K × K)}
    (ea : (psqCumulSet b).answer (onlyPushes xs) () = .val (pts.map fun p => (p.1, .val p.2)))
    {i : ℕ} (hi : i + 2 = pts.length) (h1 : pts[i].2 < 1 / 2) :
    (cmedianSet b).answer (onlyPushes xs) () = .ub := by
  obtain ⟨s, e⟩ := cmedian_pushes hb xs
  rw [cmedian_answer hb _ e, pushes_onlyPushes, ea, Res.val_bind]
  obtain ⟨pts', ea', -, -, hF, -⟩ := C23_distribution hb (onlyPushes (Q := Unit) xs) (by simpa using hn)
  rw [ea, Res.val.injEq] at ea'
  have : pts = pts' := by
    have h1 := congrArg (List.map fun p : K × Res K => (p.1, (match p.2 with | .val v => v | _ => 0))) ea'
    simpa [Function.comp_def] using h1
  subst this
  exact cumulMedianBody_last hF hi h1

/-- **C29/C56 fails** Nothing pushed: the cumulative values are NaN and the search stops at the first
point; its predecessor does not exist. -/
theorem C29_cumul_median_empty_ub :
    (cmedianSet (K := ℚ) 4).answer [] () = .ub := by
  decide +kernel

/-- **C28** Whenever the earlier extractions were defined, they do not change a later one. -/
theorem C28_cumul_median_transparent {b : ℕ} (hb : 0 < b) (h : List (Op K Unit)) {s : CMedianSt K}
    (e : (cmedianSet b).exec (cmedianSet b).init h = .val s) :
    (cmedianSet b).answer h () = (cmedianSet b).answer (onlyPushes (pushes h)) () := by
  obtain ⟨t, f⟩ := cmedian_pushes hb (pushes h)
  rw [cmedian_answer hb h e, cmedian_answer hb _ f, pushes_onlyPushes]

/-- **C29** `with_p_square_cumulative_distribution_weighted_median` evaluates the same search on the points
of the weighted distribution, with the same wrong bracket. -/
theorem C29_wcumul_median_partial {b : ℕ} (hb : 0 < b) (h : List (Op (K × K) Unit))
    {s : WCMedianSt K} (e : (wcmedianSet b).exec (wcmedianSet b).init h = .val s)
    {pts : List (K × K)}
    (ea : (wpsqCumulSet b).answer (onlyPushes (pushes h)) () = .val (pts.map fun p => (p.1, .val p.2)))
    (hF : (pts.map Prod.snd).Pairwise (· < ·)) {i : ℕ} (hi : i + 2 < pts.length)
    (h1 : pts[i].2 < 1 / 2) (h2 : 1 / 2 ≤ pts[i + 1].2) :
    ∃ t, 0 ≤ t ∧ t ≤ 1 ∧ (1 - t) * pts[i + 1].2 + t * pts[i].2 = 1 / 2 ∧
      (wcmedianSet b).answer h () = .val ((1 - t) * pts[i + 2].1 + t * pts[i + 1].1) := by
  have hpw := List.pairwise_iff_getElem.mp (List.pairwise_map.1 hF) i (i + 1) (by omega) (by omega)
    (by omega)
  have hd : 0 < pts[i + 1].2 - pts[i].2 := by linarith
  refine ⟨(pts[i + 1].2 - 1 / 2) / (pts[i + 1].2 - pts[i].2), div_nonneg (by linarith) hd.le, ?_, ?_, ?_⟩
  · rw [div_le_one hd]; linarith
  · field_simp
    ring
  · rw [wcmedian_answer hb h e, ea, Res.val_bind, cumulMedianBody_eq hF hi h1 h2]
    congr 1
    ring

/-! ## Concrete cases -/

example : (cmedianSet 4).answer [.push 3, .push 1, .push 4, .push 1, .push 5, .query (), .push (9 : ℚ),
    .query (), .push 2] () = (cmedianSet 4).answer (onlyPushes [3, 1, 4, 1, 5, 9, (2 : ℚ)]) () := by
  decide +kernel

end Acc
