import Verif.Props.WPSquare
import Verif.Props.PSquareInterp
import Verif.Props.Median
import Verif.Props.CumulMedian
import Verif.Props.WTail

/-!
# Affine equivariance (C54), continued

Interpolated quantiles, the weighted estimators, histograms and the medians read from them.
-/

set_option linter.unusedSectionVars false

namespace Acc

open Spec

variable {K : Type} [Field K] [LinearOrder K] [IsStrictOrderedRing K]

/-! ## Interpolated quantiles -/

section interp

variable {a b : K}

theorem getAt_map {α β : Type} (f : α → β) (l : List α) (i : ℕ) : getAt (l.map f) i = f <$> getAt l i := by
  unfold getAt
  rw [List.getElem?_map]
  cases l[i]? <;> rfl

theorem getBack_map {α β : Type} (f : α → β) (l : List α) (k j : ℕ) :
    getBack (l.map f) k j = f <$> getBack l k j := by
  unfold getBack
  split
  · exact getAt_map f l _
  · rfl

theorem fdiv_affine (a b x y d : K) : fdiv (a * x + b - (a * y + b)) d = (fun v => a * v) <$> fdiv (x - y) d := by
  unfold fdiv
  split
  · rfl
  · rw [Res.map_val]
    congr 1
    ring

theorem interpLinear_affine (a b p p0 p1 h0 h1 : K) :
    interpLinear p p0 p1 (a * h0 + b) (a * h1 + b) = (fun v => a * v + b) <$> interpLinear p p0 p1 h0 h1 := by
  unfold interpLinear
  rw [fdiv_affine]
  cases fdiv (h1 - h0) (p1 - p0) with
  | val v =>
    simp only [Res.map_val, Res.val_bind, Res.pure_eq]
    congr 1
    ring
  | _ => rfl

theorem interpQuadratic_affine (a b p p0 p1 p2 h0 h1 h2 : K) :
    interpQuadratic p p0 p1 p2 (a * h0 + b) (a * h1 + b) (a * h2 + b)
      = (fun v => a * v + b) <$> interpQuadratic p p0 p1 p2 h0 h1 h2 := by
  unfold interpQuadratic
  rw [fdiv_affine, fdiv_affine]
  cases fdiv (h2 - h1) (p2 - p1) with
  | val u =>
    simp only [Res.map_val, Res.val_bind]
    cases fdiv (h1 - h0) (p1 - p0) with
    | val v =>
      simp only [Res.map_val, Res.val_bind]
      cases fdiv (p2 * p2 - p1 * p1) (p2 - p1) with
      | val c =>
        simp only [Res.val_bind]
        cases fdiv (p1 * p1 - p0 * p0) (p1 - p0) with
        | val d =>
          simp only [Res.val_bind]
          have := fdiv_affine a 0 u v (c - d)
          simp only [add_zero] at this
          rw [this]
          cases fdiv (u - v) (c - d) with
          | val e =>
            simp only [Res.map_val, Res.val_bind, Res.pure_eq]
            congr 1
            ring
          | _ => rfl
        | _ => rfl
      | _ => rfl
    | _ => rfl
  | _ => rfl

theorem epsqQuantile_affine (kind : Interp) (nan : Bool) (a b : K) (ps hs : List K) (p : K) :
    epsqQuantile kind nan ps (hs.map fun v => a * v + b) p
      = (fun v => a * v + b) <$> epsqQuantile kind nan ps hs p := by
  unfold epsqQuantile
  cases lowerBound ps p with
  | val dist =>
    simp only [Res.val_bind]
    cases getAt ps 0 with
    | val first =>
      simp only [Res.val_bind]
      cases getBack ps ps.length 1 with
      | val last =>
        simp only [Res.val_bind]
        split
        · cases nan <;> rfl
        · cases getAt ps dist with
          | val pi =>
            simp only [Res.val_bind]
            split
            · exact getAt_map _ _ _
            · cases kind with
              | linear =>
                simp only [getAt_map, getBack_map]
                cases getBack ps dist 1 with
                | val p0 =>
                  simp only [Res.val_bind]
                  cases getAt hs dist with
                  | val h1 =>
                    simp only [Res.map_val, Res.val_bind]
                    cases getBack hs dist 1 with
                    | val h0 => simp only [Res.map_val, Res.val_bind, interpLinear_affine]
                    | _ => rfl
                  | _ => rfl
                | _ => rfl
              | quadratic =>
                simp only [getAt_map, getBack_map]
                cases getBack ps dist 1 with
                | val pm =>
                  simp only [Res.val_bind]
                  split
                  · cases getAt ps (dist + 1) with
                    | val p2 =>
                      simp only [Res.val_bind]
                      cases getBack hs dist 1 with
                      | val h0 =>
                        simp only [Res.map_val, Res.val_bind]
                        cases getAt hs dist with
                        | val h1 =>
                          simp only [Res.map_val, Res.val_bind]
                          cases getAt hs (dist + 1) with
                          | val h2 => simp only [Res.map_val, Res.val_bind, interpQuadratic_affine]
                          | _ => rfl
                        | _ => rfl
                      | _ => rfl
                    | _ => rfl
                  · cases getBack ps dist 2 with
                    | val p0 =>
                      simp only [Res.val_bind]
                      cases getBack hs dist 2 with
                      | val h0 =>
                        simp only [Res.map_val, Res.val_bind]
                        cases getBack hs dist 1 with
                        | val h1 =>
                          simp only [Res.map_val, Res.val_bind]
                          cases getAt hs dist with
                          | val h2 => simp only [Res.map_val, Res.val_bind, interpQuadratic_affine]
                          | _ => rfl
                        | _ => rfl
                      | _ => rfl
                    | _ => rfl
                | _ => rfl
          | _ => rfl
      | _ => rfl
    | _ => rfl
  | _ => rfl

end interp

/-! ## The weighted estimators -/

section weighted

variable {a b : K}

theorem setAt_map {α β : Type} (f : α → β) (l : List α) (i : ℕ) (x : α) :
    setAt (l.map f) i (f x) = (List.map f) <$> setAt l i x := by
  unfold setAt
  rw [List.length_map]
  split
  · rw [Res.map_val, List.map_set]
  · rfl

theorem upperBound_affine (ha : 0 < a) (l : List K) (x : K) :
    upperBound (l.map fun v => a * v + b) (a * x + b) = upperBound l x := by
  unfold upperBound
  simp only [List.findIdx_map, Function.comp_def, affine_lt ha, ← List.map_drop, List.all_map]

theorem psqCell_affine (ha : 0 < a) (h : List K) (x : K) :
    psqCell (h.map fun v => a * v + b) (a * x + b)
      = (fun r : List K × ℕ × Bool => (r.1.map fun v => a * v + b, r.2)) <$> psqCell h x := by
  unfold psqCell
  rw [getAt_map]
  cases getAt h 0 with
  | val h0 =>
    simp only [Res.map_val, Res.val_bind, affine_lt ha, List.length_map]
    split
    · rw [setAt_map (fun v => a * v + b)]
      cases setAt h 0 x <;> rfl
    · rw [getAt_map]
      cases getAt h (h.length - 1) with
      | val hl =>
        simp only [Res.map_val, Res.val_bind, affine_le ha]
        split
        · rw [setAt_map (fun v => a * v + b)]
          cases setAt h (h.length - 1) x <;> rfl
        · rw [upperBound_affine ha]
          cases upperBound h x <;> rfl
      | _ => rfl
  | _ => rfl

theorem psqAdjust1_affine (ha : 0 < a) (des : List K) (s : List K × List K) (i : ℕ) :
    psqAdjust1 des (s.1.map (fun v => a * v + b), s.2) i
      = (fun r : List K × List K => (r.1.map (fun v => a * v + b), r.2)) <$> psqAdjust1 des s i := by
  unfold psqAdjust1
  simp only [getAt_map]
  cases getAt des i with
  | val di =>
    simp only [Res.val_bind]
    cases getAt s.2 i with
    | val ni =>
      simp only [Res.val_bind]
      cases getAt s.2 (i + 1) with
      | val np =>
        simp only [Res.val_bind]
        cases getAt s.2 (i - 1) with
        | val nm =>
          simp only [Res.val_bind]
          cases getAt s.1 i with
          | val qi =>
            simp only [Res.map_val, Res.val_bind]
            cases getAt s.1 (i + 1) with
            | val qp =>
              simp only [Res.map_val, Res.val_bind]
              cases getAt s.1 (i - 1) with
              | val qm =>
                simp only [Res.map_val, Res.val_bind, fdiv_affine]
                split
                · generalize (if 0 < di - ni then (1 : K) else -1) = sgn
                  have key : ∀ {q q' : Res K}, q' = (fun v => a * v + b) <$> q →
                      (q' >>= fun q => do
                        let hs ← setAt (s.1.map fun v => a * v + b) i q
                        let ns ← setAt s.2 i (ni + sgn)
                        pure (hs, ns))
                      = (fun r : List K × List K => (r.1.map (fun v => a * v + b), r.2)) <$> (q >>= fun q => do
                        let hs ← setAt s.1 i q
                        let ns ← setAt s.2 i (ni + sgn)
                        pure (hs, ns)) := by
                    rintro q _ rfl
                    cases q with
                    | val q =>
                      simp only [Res.map_val, Res.val_bind]
                      rw [setAt_map (fun v => a * v + b)]
                      cases setAt s.1 i q with
                      | val hs =>
                        simp only [Res.map_val, Res.val_bind]
                        cases setAt s.2 i (ni + sgn) <;> rfl
                      | _ => rfl
                    | _ => rfl
                  have hlin : (if 0 < di - ni then do
                        let v ← (fun v => a * v) <$> fdiv (qp - qi) (np - ni)
                        pure (a * qi + b + v)
                      else do
                        let v ← (fun v => a * v) <$> fdiv (qm - qi) (nm - ni)
                        pure (a * qi + b - v) : Res K)
                      = (fun v => a * v + b) <$> (if 0 < di - ni then do
                        let v ← fdiv (qp - qi) (np - ni)
                        pure (qi + v)
                      else do
                        let v ← fdiv (qm - qi) (nm - ni)
                        pure (qi - v) : Res K) := by
                    split
                    · cases fdiv (qp - qi) (np - ni) with
                      | val v =>
                        simp only [Res.map_val, Res.val_bind, Res.pure_eq]
                        congr 1; ring
                      | _ => rfl
                    · cases fdiv (qm - qi) (nm - ni) with
                      | val v =>
                        simp only [Res.map_val, Res.val_bind, Res.pure_eq]
                        congr 1; ring
                      | _ => rfl
                  have hpar : (do
                        let c ← fdiv sgn (np - ni - (nm - ni))
                        let u ← (fun v => a * v) <$> fdiv (qp - qi) (np - ni)
                        let v ← (fun v => a * v) <$> fdiv (qm - qi) (nm - ni)
                        pure (a * qi + b + c * ((sgn - (nm - ni)) * u + (np - ni - sgn) * v)) : Res K)
                      = (fun v => a * v + b) <$> (do
                        let c ← fdiv sgn (np - ni - (nm - ni))
                        let u ← fdiv (qp - qi) (np - ni)
                        let v ← fdiv (qm - qi) (nm - ni)
                        pure (qi + c * ((sgn - (nm - ni)) * u + (np - ni - sgn) * v)) : Res K) := by
                    cases fdiv sgn (np - ni - (nm - ni)) with
                    | val c =>
                      simp only [Res.val_bind]
                      cases fdiv (qp - qi) (np - ni) with
                      | val u =>
                        simp only [Res.map_val, Res.val_bind]
                        cases fdiv (qm - qi) (nm - ni) with
                        | val v =>
                          simp only [Res.map_val, Res.val_bind, Res.pure_eq]
                          congr 1; ring
                        | _ => rfl
                      | _ => rfl
                    | _ => rfl
                  rw [hpar]
                  generalize (do
                        let c ← fdiv sgn (np - ni - (nm - ni))
                        let u ← fdiv (qp - qi) (np - ni)
                        let v ← fdiv (qm - qi) (nm - ni)
                        pure (qi + c * ((sgn - (nm - ni)) * u + (np - ni - sgn) * v)) : Res K) = h
                  cases h with
                  | val v =>
                    simp only [Res.map_val, affine_lt ha]
                    split
                    · exact key (q := .val v) rfl
                    · exact key hlin
                  | _ => exact key hlin
                · rfl
              | _ => rfl
            | _ => rfl
          | _ => rfl
        | _ => rfl
      | _ => rfl
    | _ => rfl
  | _ => rfl

theorem psqAdjust_affine (ha : 0 < a) (des : List K) (s : List K × List K) :
    psqAdjust des (s.1.map (fun v => a * v + b), s.2)
      = (fun r : List K × List K => (r.1.map (fun v => a * v + b), r.2)) <$> psqAdjust des s := by
  unfold psqAdjust
  rw [List.length_map]
  generalize List.range' 1 (s.1.length - 2) = is
  induction is generalizing s with
  | nil => rfl
  | cons i is ih =>
    simp only [foldRes, psqAdjust1_affine ha]
    cases psqAdjust1 des s i with
    | val t => simp only [Res.map_val, Res.val_bind]; exact ih t
    | _ => rfl

/-- The states of the two sets correspond. -/
def AffRel (a b : K) (m : ℕ) (s s' : WPsqSt K) : Prop :=
  s.heights.length = m ∧ s.pos.length = m ∧ s'.cnt = s.cnt ∧ s'.wsum = s.wsum ∧ s'.pos = s.pos ∧
    s'.heights = (s.heights.take s.cnt).map (fun v => a * v + b) ++ s.heights.drop s.cnt

theorem wpsqPush_affine (ha : 0 < a) {m summed : ℕ} (desired : K → K → Res (List K)) {s s' t : WPsqSt K}
    (h : AffRel a b m s s') (q : K × K) (e : wpsqPush m summed desired s q = .val t) (hl : t.heights.length = m)
    (hl' : t.pos.length = m) (hc : t.cnt = s.cnt + 1) :
    ∃ t', wpsqPush m summed desired s' (a * q.1 + b, q.2) = .val t' ∧ AffRel a b m t t' := by
  obtain ⟨h1, h2, h3, h4, h5, h6⟩ := h
  unfold wpsqPush wpsqStep at e ⊢
  rw [h3, h4, h5]
  by_cases hm : s.cnt + 1 ≤ m
  · rw [if_pos hm] at e ⊢
    simp only [Nat.add_sub_cancel] at e ⊢
    have hlen : s'.heights.length = m := by rw [h6]; simp; omega
    rw [setAt_lt (by omega), Res.val_bind, setAt_lt (by omega), Res.val_bind] at e ⊢
    have hset : s'.heights.set s.cnt (a * q.1 + b)
        = ((s.heights.set s.cnt q.1).take (s.cnt + 1)).map (fun v => a * v + b)
          ++ (s.heights.set s.cnt q.1).drop (s.cnt + 1) := by
      rw [h6]
      apply List.ext_getElem?
      intro i
      simp only [List.getElem?_set, List.getElem?_append, List.getElem?_map, List.getElem?_take, List.getElem?_drop,
        List.length_map, List.length_take, List.length_append, List.length_drop, List.length_set]
      rcases lt_trichotomy i s.cnt with hi | hi | hi
      · have e1 : ¬ s.cnt = i := by omega
        have e2 : i < min s.cnt s.heights.length := by omega
        have e3 : i < min (s.cnt + 1) s.heights.length := by omega
        simp [e1, e2, e3, hi, Nat.lt_succ_of_lt hi]
      · subst hi
        have e2 : s.cnt < min (s.cnt + 1) s.heights.length := by omega
        have e3 : s.cnt < min s.cnt s.heights.length + (s.heights.length - s.cnt) := by omega
        have e4 : s.cnt < s.heights.length := by omega
        simp [e3, e4]
      · have e1 : ¬ s.cnt = i := by omega
        have e2 : ¬ i < min s.cnt s.heights.length := by omega
        have e3 : ¬ i < min (s.cnt + 1) s.heights.length := by omega
        have e4 : s.cnt + (i - min s.cnt s.heights.length) = i := by omega
        have e5 : s.cnt + 1 + (i - min (s.cnt + 1) s.heights.length) = i := by omega
        simp [e1, e2, e3, e4, e5]
    by_cases hcm : s.cnt + 1 = m
    · rw [if_pos hcm] at e ⊢
      simp only [Res.pure_eq, Res.val.injEq] at e
      have hfull : s'.heights.set s.cnt (a * q.1 + b) = (s.heights.set s.cnt q.1).map fun v => a * v + b := by
        rw [hset, List.take_of_length_le (by simp; omega), List.drop_eq_nil_of_le (by simp; omega), List.append_nil]
      have hz : ((s.heights.set s.cnt q.1).map fun v => a * v + b).zip (s.pos.set s.cnt q.2)
          = ((s.heights.set s.cnt q.1).zip (s.pos.set s.cnt q.2)).map fun p => (a * p.1 + b, p.2) := by
        rw [List.zip_map_left]; rfl
      rw [hfull, hz, selSort_affine ha]
      refine ⟨_, rfl, ?_⟩
      subst e
      simp only at hl hl' ⊢
      refine ⟨hl, hl', rfl, rfl, ?_, ?_⟩
      · simp [List.map_map, Function.comp_def]
      · simp only
        rw [List.take_of_length_le (by omega), List.drop_eq_nil_of_le (by omega), List.append_nil]
        simp [List.map_map, Function.comp_def]
    · rw [if_neg hcm] at e ⊢
      simp only [Res.pure_eq, Res.val.injEq] at e
      refine ⟨_, rfl, ?_⟩
      subst e
      exact ⟨hl, hl', rfl, rfl, rfl, hset⟩
  · rw [if_neg hm] at e ⊢
    have hh : s'.heights = s.heights.map fun v => a * v + b := by
      rw [h6, List.take_of_length_le (by omega), List.drop_eq_nil_of_le (by omega), List.append_nil]
    rw [hh]
    simp only [psqCell_affine ha]
    cases hcell : psqCell s.heights q.1 with
    | val c =>
      rw [hcell] at e
      simp only [Res.map_val, Res.val_bind] at e ⊢
      have rest : ∀ pos : List K,
          (getAt (psqBump c.2.1 q.2 pos) 0 >>= fun n0 => do
            let des ← desired n0 (s.wsum + q.2)
            let r ← psqAdjust des (c.1, psqBump c.2.1 q.2 pos)
            pure ⟨s.cnt + 1, s.wsum + q.2, r.1, r.2⟩ : Res (WPsqSt K)) = .val t →
          ∃ t', (getAt (psqBump c.2.1 q.2 pos) 0 >>= fun n0 => do
            let des ← desired n0 (s.wsum + q.2)
            let r ← psqAdjust des (c.1.map (fun v => a * v + b), psqBump c.2.1 q.2 pos)
            pure ⟨s.cnt + 1, s.wsum + q.2, r.1, r.2⟩ : Res (WPsqSt K)) = .val t' ∧ AffRel a b m t t' := by
        intro pos e
        cases hn : getAt (psqBump c.2.1 q.2 pos) 0 with
        | val n0 =>
          rw [hn] at e
          simp only [Res.val_bind] at e ⊢
          cases hd : desired n0 (s.wsum + q.2) with
          | val des =>
            rw [hd] at e
            simp only [Res.val_bind] at e ⊢
            have := psqAdjust_affine (b := b) ha des (c.1, psqBump c.2.1 q.2 pos)
            simp only at this
            rw [this]
            cases hr : psqAdjust des (c.1, psqBump c.2.1 q.2 pos) with
            | val r =>
              rw [hr] at e
              simp only [Res.map_val, Res.val_bind, Res.pure_eq, Res.val.injEq] at e ⊢
              refine ⟨_, rfl, ?_⟩
              subst e
              simp only at hl hl'
              refine ⟨hl, hl', rfl, rfl, rfl, ?_⟩
              simp only
              rw [List.take_of_length_le (by omega), List.drop_eq_nil_of_le (by omega), List.append_nil]
            | _ => rw [hr] at e; cases e
          | _ => rw [hd] at e; cases e
        | _ => rw [hn] at e; cases e
      split at e
      · rename_i hb
        rw [if_pos hb]
        cases hp : setAt s.pos 0 q.2 with
        | val pos =>
          rw [hp] at e
          exact rest pos e
        | _ => rw [hp] at e; cases e
      · rename_i hb
        rw [if_neg hb]
        exact rest s.pos e
    | _ => rw [hcell] at e; cases e

theorem wpsqRun_affine (ha : 0 < a) {m summed : ℕ} (hm : 2 ≤ m) (hsm : summed ≤ m) {desired : K → K → Res (List K)}
    (hd : ∀ n0 W, ∃ t, desired n0 W = .val (tab m t)) (l : List (K × K)) :
    ∃ s s', wpsqRun m summed desired l = .val s ∧ s.WF m summed l ∧
      wpsqRun m summed desired (l.map fun q => (a * q.1 + b, q.2)) = .val s' ∧ AffRel a b m s s' := by
  induction l using List.reverseRecOn with
  | nil =>
    refine ⟨_, _, rfl, wpsqInit_wf (by omega), rfl, ?_⟩
    simp [AffRel, wpsqInit]
  | append_singleton l q ih =>
    obtain ⟨s, s', e, W, e', R⟩ := ih
    obtain ⟨t, f, W'⟩ := wpsqPush_wf hm hsm hd W q
    obtain ⟨t', f', R'⟩ := wpsqPush_affine ha desired R q f (wpsq_len W').1 (wpsq_len W').2
      (by rw [W'.cnt, W.cnt]; simp)
    refine ⟨t, t', ?_, W', ?_, R'⟩
    · unfold wpsqRun at e ⊢
      rw [foldRes_snoc, e, Res.val_bind, f]
    · unfold wpsqRun at e' ⊢
      rw [List.map_append, List.map_cons, List.map_nil, foldRes_snoc, e', Res.val_bind, f']

/-- Once all markers are initialised. -/
theorem AffRel.full {m : ℕ} {s s' : WPsqSt K} (h : AffRel a b m s s') (hm : m ≤ s.cnt) :
    s'.heights = s.heights.map fun v => a * v + b := by
  obtain ⟨h1, -, -, -, -, h6⟩ := h
  rw [h6, List.take_of_length_le (by omega), List.drop_eq_nil_of_le (by omega), List.append_nil]

/-- **C54** `weighted_p_square_cumulative_distribution`: the heights are rescaled, the cumulative values stay; any weights. -/
theorem C54_wpsq_cumul {cells : ℕ} (hc : 0 < cells) (ha : 0 < a) (ps : List (K × K)) (h : cells + 1 ≤ ps.length) :
    (wpsqCumulSet cells).answer (onlyPushes (ps.map fun q => (a * q.1 + b, q.2))) ()
      = (fun r => r.map fun p => (a * p.1 + b, p.2)) <$> (wpsqCumulSet cells).answer (onlyPushes ps) () := by
  obtain ⟨s, s', e, W, e', R⟩ := wpsqRun_affine (b := b) ha (show 2 ≤ cells + 1 by omega) (Nat.le_succ cells)
    (desired := fun n0 W => .val (wpsqCumulDes cells n0 W))
    (fun n0 W => by obtain ⟨t, ht⟩ := wcumulDes_eq cells n0 W; exact ⟨t, by rw [ht]⟩) ps
  obtain ⟨t, f, I⟩ := wpsqCumul_exec hc (onlyPushes (Q := Unit) ps)
  obtain ⟨t', f', I'⟩ := wpsqCumul_exec hc (onlyPushes (Q := Unit) (ps.map fun q => (a * q.1 + b, q.2)))
  have h1 := I.run
  have h2 := I'.run
  rw [pushes_onlyPushes, e, Res.val.injEq] at h1
  rw [pushes_onlyPushes, e', Res.val.injEq] at h2
  obtain ⟨u, r, q, -, -, hr⟩ := wpsqCumul_query I
  obtain ⟨u', r', q', -, -, hr'⟩ := wpsqCumul_query I'
  unfold RMachine.answer
  simp only [f, f', q, q', Res.val_bind, Res.pure_eq, Res.map_val]
  have hf := R.full (by rw [W.cnt]; exact h)
  obtain ⟨l1, l2, -, l4, l5, -⟩ := R
  rw [← h1, psqHist_any (by omega), Res.val.injEq] at hr
  rw [← h2, hf, l4, l5, psqHist_any (by simp; omega), Res.val.injEq] at hr'
  rw [← hr, ← hr', List.map_map, List.length_map]
  congr 1
  apply List.map_congr_left
  intro i hi
  have hi := List.mem_range.1 hi
  simp [Function.comp, hi]

theorem epsqResult_map (f : K → K) (q : ℕ) (l : List K) :
    epsqResult q (l.map f) = (List.map f) <$> epsqResult q l := by
  unfold epsqResult
  generalize List.range' 1 q = is
  induction is with
  | nil => rfl
  | cons i is ih =>
    simp only [mapRes]
    rw [ih, getAt_map]
    cases getAt l (2 * i) with
    | val x =>
      simp only [Res.map_val, Res.val_bind]
      cases mapRes (fun i => getAt l (2 * i)) is <;> rfl
    | _ => rfl

/-- **C54** `weighted_extended_p_square`, any weights. -/
theorem C54_wepsq {ps : List K} (h0 : ps ≠ []) (ha : 0 < a) (qs : List (K × K)) (h : 2 * ps.length + 3 ≤ qs.length) :
    (wepsqSet ps).answer (onlyPushes (qs.map fun q => (a * q.1 + b, q.2))) ()
      = (fun r => r.map fun v => a * v + b) <$> (wepsqSet ps).answer (onlyPushes qs) () := by
  obtain ⟨s, s', e, W, e', R⟩ := wpsqRun_affine (b := b) ha (show 2 ≤ 2 * ps.length + 3 by omega) le_rfl
    (desired := wepsqDes ps) (fun n0 W => ⟨_, wepsqDes_eq h0 n0 W⟩) qs
  obtain ⟨t, f, I, -⟩ := wepsq_exec h0 (onlyPushes (Q := Unit) qs)
  obtain ⟨t', f', I', -⟩ := wepsq_exec h0 (onlyPushes (Q := Unit) (qs.map fun q => (a * q.1 + b, q.2)))
  rw [pushes_onlyPushes, e, Res.val.injEq] at I
  rw [pushes_onlyPushes, e', Res.val.injEq] at I'
  subst I I'
  unfold RMachine.answer
  rw [f, f', Res.val_bind, Res.val_bind]
  simp only [wepsqSet, R.full (by rw [W.cnt]; exact h), epsqResult_map]
  cases epsqResult ps.length s.heights <;> rfl

/-- **C54** `weighted_p_square_quantile` (hence the weighted median) for any weights, including zero and negative ones. -/
theorem C54_wpsq_any (p : K) (ha : 0 < a) (qs : List (K × K)) (h : 5 ≤ qs.length) :
    (wpsqQuantileSet p).answer (onlyPushes (qs.map fun q => (a * q.1 + b, q.2))) ()
      = (fun v => a * v + b) <$> (wpsqQuantileSet p).answer (onlyPushes qs) () := by
  obtain ⟨s, s', e, W, e', R⟩ := wpsqRun_affine (b := b) ha (show 2 ≤ 5 by omega) le_rfl
    (desired := fun n0 W => .val (wpsqQuantileDes p n0 W)) (fun n0 W => ⟨_, wquantile_des p n0 W⟩) qs
  obtain ⟨t, f, I, -⟩ := wquantile_exec p (onlyPushes (Q := Unit) qs)
  obtain ⟨t', f', I', -⟩ := wquantile_exec p (onlyPushes (Q := Unit) (qs.map fun q => (a * q.1 + b, q.2)))
  rw [pushes_onlyPushes, e, Res.val.injEq] at I
  rw [pushes_onlyPushes, e', Res.val.injEq] at I'
  subst I I'
  unfold RMachine.answer
  rw [f, f', Res.val_bind, Res.val_bind]
  simp only [wpsqQuantileSet, R.full (by rw [W.cnt]; exact h), getAt_map]
  cases getAt s.heights 2 <;> rfl

/-- **C54** `median` and `weighted_median`. -/
theorem C54_median (ha : 0 < a) (qs : List (K × K)) (h : 5 ≤ qs.length) :
    (medianSet).answer (onlyPushes (qs.map fun q => a * q.1 + b)) ()
      = (fun v => a * v + b) <$> (medianSet).answer (onlyPushes (qs.map Prod.fst)) () ∧
    (wmedianSet).answer (onlyPushes (qs.map fun q => (a * q.1 + b, q.2))) ()
      = (fun v => a * v + b) <$> (wmedianSet).answer (onlyPushes qs) () := by
  have := C54_psq (1 / 2) (b := b) ha (qs.map Prod.fst) (by simpa using h)
  rw [List.map_map] at this
  exact ⟨this, C54_wpsq_any (1 / 2) ha qs h⟩

end weighted

/-! ## Interpolated quantiles of sets -/

/-- **C54** `extended_p_square_quantile`, linear and quadratic: the quantile is rescaled (and NaN or an exception happens for
the same calls). -/
theorem C54_epsq_quantile (kind : Interp) (nan : Bool) {ps : List K} (hp : ps.Pairwise (· < ·)) (h0 : 0 < ps.length)
    (hk : kind = .quadratic → ps.length ≠ 2) {a b : K} (ha : 0 < a) (xs : List K) (h : 2 * ps.length + 3 ≤ xs.length)
    (p : K) :
    (epsqQuantileSet kind nan ps).answer (onlyPushes (xs.map fun x => a * x + b)) p
      = (fun r => (fun v => a * v + b) <$> r) <$> (epsqQuantileSet kind nan ps).answer (onlyPushes xs) p := by
  obtain ⟨vs, e, -, e'⟩ := C25_set kind nan hp h0 hk (onlyPushes xs) p
  obtain ⟨us, f, -, f'⟩ := C25_set kind nan hp h0 hk (onlyPushes (xs.map fun x => a * x + b)) p
  rw [pushes_onlyPushes] at e f
  rw [C54_epsq ps ha xs h, e, Res.map_val, Res.val.injEq] at f
  rw [e', f', Res.map_val, ← f, epsqQuantile_affine]

/-- **C54** The weighted interpolated quantiles, any weights. -/
theorem C54_wepsq_quantile (kind : Interp) (nan : Bool) {ps : List K} (hp : ps.Pairwise (· < ·)) (h0 : 0 < ps.length)
    (hk : kind = .quadratic → ps.length ≠ 2) {a b : K} (ha : 0 < a) (qs : List (K × K))
    (h : 2 * ps.length + 3 ≤ qs.length) (p : K) :
    (wepsqQuantileSet kind nan ps).answer (onlyPushes (qs.map fun q => (a * q.1 + b, q.2))) p
      = (fun r => (fun v => a * v + b) <$> r) <$> (wepsqQuantileSet kind nan ps).answer (onlyPushes qs) p := by
  obtain ⟨vs, e, -, e'⟩ := C41_quantile kind nan hp h0 hk (onlyPushes qs) p
  obtain ⟨us, f, -, f'⟩ := C41_quantile kind nan hp h0 hk (onlyPushes (qs.map fun q => (a * q.1 + b, q.2))) p
  rw [pushes_onlyPushes] at e f
  rw [C54_wepsq (List.ne_nil_of_length_pos h0) ha qs h, e, Res.map_val, Res.val.injEq] at f
  rw [e', f', Res.map_val, ← f, epsqQuantile_affine]

/-! ## Histograms and the medians read from them -/

section histogram

variable {a b : K}

theorem edge_affine (a b u v : K) (B i : ℕ) (hB : 0 < B) :
    edge (a * u + b) (a * v + b) B i = a * edge u v B i + b := by
  have : (B : K) ≠ 0 := Nat.cast_ne_zero.2 hB.ne'
  unfold edge
  field_simp
  ring

theorem inBin_affine (ha : 0 < a) (u v : K) (B i : ℕ) (hB : 0 < B) (x : K) :
    inBin (a * u + b) (a * v + b) B i (a * x + b) ↔ inBin u v B i x := by
  unfold inBin
  simp only [edge_affine a b u v B _ hB, affine_lt ha, affine_le ha]

theorem binWeight_affine (ha : 0 < a) (u v : K) (B i : ℕ) (hB : 0 < B) (ps : List (K × K)) :
    binWeight (a * u + b) (a * v + b) B i (ps.map fun q => (a * q.1 + b, q.2)) = binWeight u v B i ps := by
  unfold binWeight
  rw [List.filter_map, List.map_map]
  simp only [Function.comp_def, inBin_affine ha u v B i hB]

/-- The table of a histogram after the samples have been rescaled. -/
theorem wtable_affine (ha : 0 < a) {lo hi lo' hi' : K} {c B : ℕ} (hc : 0 < c) (hB : 0 < B) {ps : List (K × K)}
    (hlim : ∀ p ∈ ps, lo ≤ p.1 ∧ p.1 ≤ hi) (hlim' : ∀ p ∈ ps, lo' ≤ a * p.1 + b ∧ a * p.1 + b ≤ hi')
    (hfull : c ≤ ps.length) :
    wtable lo' hi' c B (ps.map fun q => (a * q.1 + b, q.2))
      = (wtable lo hi c B ps).map fun r => (a * r.1 + b, r.2) := by
  have hne : (ps.take c).map Prod.fst ≠ [] := by
    intro h
    have := congrArg List.length h
    rw [List.length_map, List.length_take, List.length_nil] at this
    omega
  have hmin : IsLeast {x | x ∈ (ps.take c).map Prod.fst} (cacheMin hi c ps) :=
    C09_min hi _ hne (fun x hx => by
      obtain ⟨p, hp, rfl⟩ := List.mem_map.mp hx
      exact (hlim p (List.mem_of_mem_take hp)).2)
  have hmax : IsGreatest {x | x ∈ (ps.take c).map Prod.fst} (cacheMax lo c ps) :=
    C09_max lo _ hne (fun x hx => by
      obtain ⟨p, hp, rfl⟩ := List.mem_map.mp hx
      exact (hlim p (List.mem_of_mem_take hp)).1)
  have hset : ((ps.map fun q => (a * q.1 + b, q.2)).take c).map Prod.fst
      = ((ps.take c).map Prod.fst).map fun x => a * x + b := by
    rw [← List.map_take, List.map_map, List.map_map]
    rfl
  have e1 : cacheMin hi' c (ps.map fun q => (a * q.1 + b, q.2)) = a * cacheMin hi c ps + b := by
    apply cacheMin_unique
    · intro p hp
      obtain ⟨q, hq, rfl⟩ := List.mem_map.1 hp
      exact (hlim' q hq).2
    · rw [hset]
      refine ⟨List.mem_map.2 ⟨_, hmin.1, rfl⟩, ?_⟩
      intro y hy
      obtain ⟨x, hx, rfl⟩ := List.mem_map.1 hy
      exact (affine_le ha _ _).2 (hmin.2 hx)
  have e2 : cacheMax lo' c (ps.map fun q => (a * q.1 + b, q.2)) = a * cacheMax lo c ps + b := by
    apply cacheMax_unique
    · intro p hp
      obtain ⟨q, hq, rfl⟩ := List.mem_map.1 hp
      exact (hlim' q hq).1
    · rw [hset]
      refine ⟨List.mem_map.2 ⟨_, hmax.1, rfl⟩, ?_⟩
      intro y hy
      obtain ⟨x, hx, rfl⟩ := List.mem_map.1 hy
      exact (affine_le ha _ _).2 (hmax.2 hx)
  have e3 : wtotal (ps.map fun q => (a * q.1 + b, q.2)) = wtotal ps := by
    simp [wtotal, Function.comp_def]
  unfold wtable
  rw [if_neg (by simpa using hfull), if_neg (by omega), e1, e2, e3, List.map_map]
  apply List.map_congr_left
  intro i _
  simp only [Function.comp, edge_affine a b _ _ B i hB, binWeight_affine ha _ _ B i hB]

/-- **C54** Histograms: the bin edges are rescaled, the fractions stay. -/
theorem C54_density (ha : 0 < a) {lo hi lo' hi' : K} {c B : ℕ} (hc : 0 < c) (hB : 0 < B) (x0 x0' : K) (xs : List K)
    (hlim : ∀ x ∈ xs, lo ≤ x ∧ x ≤ hi) (hlim' : ∀ x ∈ xs, lo' ≤ a * x + b ∧ a * x + b ≤ hi') (hfull : c ≤ xs.length) :
    (densitySet lo' hi' c B x0').answer (onlyPushes (xs.map fun x => a * x + b)) ()
      = (fun r => r.map fun p => (a * p.1 + b, p.2)) <$> (densitySet lo hi c B x0).answer (onlyPushes xs) () := by
  rw [density_answer hc hB x0 _ (by rwa [pushes_onlyPushes]), density_answer hc hB x0' _ (by
      rw [pushes_onlyPushes]
      intro x hx
      obtain ⟨y, hy, rfl⟩ := List.mem_map.1 hx
      exact hlim' y hy), pushes_onlyPushes, pushes_onlyPushes, Res.map_val, ← wtable_affine (lo' := lo') (hi' := hi') ha hc hB
      (by simpa using hlim) (by simpa using hlim') (by simpa using hfull)]
  simp [Function.comp_def]

/-- **C54** Weighted histograms. -/
theorem C54_wdensity (ha : 0 < a) {lo hi lo' hi' : K} {c B : ℕ} (hc : 0 < c) (hB : 0 < B) (x0 x0' : K)
    (ps : List (K × K)) (hlim : ∀ p ∈ ps, lo ≤ p.1 ∧ p.1 ≤ hi)
    (hlim' : ∀ p ∈ ps, lo' ≤ a * p.1 + b ∧ a * p.1 + b ≤ hi') (hfull : c ≤ ps.length) :
    (wdensitySet lo' hi' c B x0').answer (onlyPushes (ps.map fun q => (a * q.1 + b, q.2))) ()
      = (fun r => r.map fun p => (a * p.1 + b, p.2)) <$> (wdensitySet lo hi c B x0).answer (onlyPushes ps) () := by
  rw [wdensity_answer hc hB x0 _ (by rwa [pushes_onlyPushes]), wdensity_answer hc hB x0' _ (by
      rw [pushes_onlyPushes]
      intro x hx
      obtain ⟨y, hy, rfl⟩ := List.mem_map.1 hx
      exact hlim' y hy), pushes_onlyPushes, pushes_onlyPushes, Res.map_val, ← wtable_affine (lo' := lo') (hi' := hi') ha hc hB
      hlim hlim' hfull]

theorem densityMedianLoop_affine (a b cnt sum : K) (i : ℕ) (l : List (K × Res K)) :
    densityMedianLoop cnt sum i (l.map fun r => (a * r.1 + b, r.2)) = densityMedianLoop cnt sum i l := by
  induction l generalizing sum i with
  | nil => rfl
  | cons r l ih =>
    simp only [List.map_cons, densityMedianLoop]
    split
    · cases r.2 with
      | val f => simp only [Res.val_bind, ih]
      | _ => rfl
    · rfl

theorem densityMedianBody_affine (a b cnt sum : K) (l : List (K × Res K)) :
    densityMedianBody cnt sum (l.map fun r => (a * r.1 + b, r.2))
      = (fun r : K × K => (r.1, a * r.2 + b)) <$> densityMedianBody cnt sum l := by
  unfold densityMedianBody
  rw [densityMedianLoop_affine]
  cases densityMedianLoop cnt sum 0 l with
  | val r =>
    simp only [Res.val_bind]
    cases r.2 with
    | zero => rfl
    | succ i =>
      simp only [getAt_map]
      cases getAt l i with
      | val it =>
        simp only [Res.map_val, Res.val_bind]
        cases it.2 with
        | val f =>
          simp only [Res.val_bind]
          cases fdiv (r.1 - 1 / 2 * cnt) (f * cnt) with
          | val o =>
            simp only [Res.val_bind]
            cases getAt l (i + 1) with
            | val n =>
              simp only [Res.map_val, Res.val_bind, Res.pure_eq]
              congr 2
              ring
            | _ => rfl
          | _ => rfl
        | _ => rfl
      | _ => rfl
  | _ => rfl

/-- **C54** `with_density_median`, unweighted and weighted (and undefined behaviour happens for the same streams). -/
theorem C54_density_median (ha : 0 < a) {lo hi lo' hi' : K} {c B : ℕ} (hc : 0 < c) (hB : 0 < B) (x0 : K)
    (ps : List (K × K)) (hlim : ∀ p ∈ ps, lo ≤ p.1 ∧ p.1 ≤ hi)
    (hlim' : ∀ p ∈ ps, lo' ≤ a * p.1 + b ∧ a * p.1 + b ≤ hi') (hfull : c ≤ ps.length) :
    (dmedianSet lo' hi' c B x0).answer (onlyPushes (ps.map fun q => a * q.1 + b)) ()
      = (fun v => a * v + b) <$> (dmedianSet lo hi c B x0).answer (onlyPushes (ps.map Prod.fst)) () ∧
    (wdmedianSet lo' hi' c B x0).answer (onlyPushes (ps.map fun q => (a * q.1 + b, q.2))) ()
      = (fun v => a * v + b) <$> (wdmedianSet lo hi c B x0).answer (onlyPushes ps) () := by
  have key : ∀ (n : K) (l : List (K × Res K)),
      (densityMedianBody n x0 (l.map fun r => (a * r.1 + b, r.2)) >>= fun m => pure m.2 : Res K)
        = (fun v => a * v + b) <$> (densityMedianBody n x0 l >>= fun m => pure m.2 : Res K) := by
    intro n l
    rw [densityMedianBody_affine]
    cases densityMedianBody n x0 l <;> rfl
  constructor
  · rw [dmedian_first_query hc hB x0 _ (by
      intro x hx
      obtain ⟨y, hy, rfl⟩ := List.mem_map.1 hx
      exact hlim' y hy), dmedian_first_query (lo := lo) (hi := hi) hc hB x0 _ (by
      intro x hx
      obtain ⟨y, hy, rfl⟩ := List.mem_map.1 hx
      exact hlim y hy), ← key, ← wtable_affine (lo' := lo') (hi' := hi') ha hc hB ?_ ?_ ?_]
    · simp [Function.comp_def]
    · intro q hq
      simp only [List.map_map, List.mem_map] at hq
      obtain ⟨y, hy, rfl⟩ := hq
      exact hlim y hy
    · intro q hq
      simp only [List.map_map, List.mem_map] at hq
      obtain ⟨y, hy, rfl⟩ := hq
      exact hlim' y hy
    · simpa using hfull
  · rw [wdmedian_first_query hc hB x0 _ (by
      intro x hx
      obtain ⟨y, hy, rfl⟩ := List.mem_map.1 hx
      exact hlim' y hy), wdmedian_first_query hc hB x0 _ hlim, ← key,
      ← wtable_affine (lo' := lo') (hi' := hi') ha hc hB hlim hlim' hfull, List.length_map]

theorem cumulMedianLoop_affine (a b : K) (i : ℕ) (l : List (K × Res K)) :
    cumulMedianLoop i (l.map fun r => (a * r.1 + b, r.2)) = cumulMedianLoop i l := by
  induction l generalizing i with
  | nil => rfl
  | cons r l ih =>
    simp only [List.map_cons, cumulMedianLoop, ih]

theorem cumulMedianBody_affine (a b : K) (l : List (K × Res K)) :
    cumulMedianBody (l.map fun r => (a * r.1 + b, r.2)) = (fun v => a * v + b) <$> cumulMedianBody l := by
  unfold cumulMedianBody
  rw [cumulMedianLoop_affine]
  cases cumulMedianLoop 0 l with
  | val i =>
    simp only [Res.val_bind, getAt_map]
    cases getAt l i with
    | val it =>
      simp only [Res.map_val, Res.val_bind]
      cases i with
      | zero => rfl
      | succ j =>
        simp only
        cases getAt l j with
        | val pr =>
          simp only [Res.map_val, Res.val_bind]
          cases getAt l (j + 1 + 1) with
          | val nx =>
            simp only [Res.map_val, Res.val_bind]
            cases it.2 with
            | val f =>
              simp only [Res.val_bind]
              cases pr.2 with
              | val g =>
                simp only [Res.val_bind]
                cases fdiv (f - 1 / 2) (f - g) with
                | val o =>
                  simp only [Res.map_val, Res.val_bind, Res.pure_eq]
                  congr 1
                  ring
                | _ => rfl
              | _ => rfl
            | _ => rfl
          | _ => rfl
        | _ => rfl
    | _ => rfl
  | _ => rfl

/-- **C54** `with_p_square_cumulative_distribution_median`. -/
theorem C54_cumul_median {cells : ℕ} (hc : 0 < cells) (ha : 0 < a) (xs : List K) (h : cells + 1 ≤ xs.length) :
    (cmedianSet cells).answer (onlyPushes (xs.map fun x => a * x + b)) ()
      = (fun v => a * v + b) <$> (cmedianSet cells).answer (onlyPushes xs) () := by
  obtain ⟨s, e⟩ := cmedian_pushes hc xs
  obtain ⟨s', e'⟩ := cmedian_pushes hc (xs.map fun x => a * x + b)
  rw [cmedian_answer hc _ e, cmedian_answer hc _ e', pushes_onlyPushes, pushes_onlyPushes, C54_psq_cumul hc ha xs h]
  cases (psqCumulSet cells).answer (onlyPushes xs) () with
  | val r => simp only [Res.map_val, Res.val_bind, cumulMedianBody_affine]
  | _ => rfl

theorem wcmedian_pushes {cells : ℕ} (hb : 0 < cells) (ps : List (K × K)) :
    ∃ s, (wcmedianSet cells).exec (wcmedianSet cells).init (onlyPushes ps) = .val s := by
  have key : ∀ (qs : List (K × K)) (d : WPsqCumulSt K) (dirty : Bool) (m : K) (ys : List (K × K)), d.Inv cells ys →
      ∃ s, (wcmedianSet cells).exec ⟨d, dirty, m⟩ (onlyPushes qs) = .val s := by
    intro qs
    induction qs with
    | nil => intro d dirty m ys _; exact ⟨_, rfl⟩
    | cons x qs ih =>
      intro d dirty m ys I
      obtain ⟨m', e, W⟩ := wpsqPush_wf (desired := fun n0 W => .val (wpsqCumulDes cells n0 W))
        (show 2 ≤ cells + 1 by omega) (Nat.le_succ cells)
        (fun n0 W => by obtain ⟨t, ht⟩ := wcumulDes_eq cells n0 W; exact ⟨t, by rw [ht]⟩) I.wf x
      obtain ⟨s, es⟩ := ih ⟨m', d.hist, true⟩ true m (ys ++ [x])
        ⟨by rw [wpsqRun_snoc, I.run, Res.val_bind, e], W, fun h => by simp at h⟩
      refine ⟨s, ?_⟩
      simp only [onlyPushes, List.map_cons, RMachine.exec, RMachine.exec1]
      have : (wcmedianSet cells).push ⟨d, dirty, m⟩ x = .val ⟨⟨m', d.hist, true⟩, true, m⟩ := by
        simp only [wcmedianSet, wpsqCumulSet]
        rw [e]; rfl
      rw [this, Res.val_bind]
      exact es
  obtain ⟨t, f, J⟩ := wpsqCumul_exec (K := K) hb []
  simp only [RMachine.exec, Res.val.injEq] at f
  subst f
  exact key ps _ _ _ _ J

/-- **C54** `with_p_square_cumulative_distribution_weighted_median`, any weights. -/
theorem C54_wcumul_median {cells : ℕ} (hc : 0 < cells) (ha : 0 < a) (ps : List (K × K)) (h : cells + 1 ≤ ps.length) :
    (wcmedianSet cells).answer (onlyPushes (ps.map fun q => (a * q.1 + b, q.2))) ()
      = (fun v => a * v + b) <$> (wcmedianSet cells).answer (onlyPushes ps) () := by
  obtain ⟨s, e⟩ := wcmedian_pushes hc ps
  obtain ⟨s', e'⟩ := wcmedian_pushes hc (ps.map fun q => (a * q.1 + b, q.2))
  rw [wcmedian_answer hc _ e, wcmedian_answer hc _ e', pushes_onlyPushes, pushes_onlyPushes, C54_wpsq_cumul hc ha ps h]
  cases (wpsqCumulSet cells).answer (onlyPushes ps) () with
  | val r => simp only [Res.map_val, Res.val_bind, cumulMedianBody_affine]
  | _ => rfl

end histogram

/-! ## Weighted tails -/

section tails

variable {V : Type} [FloorRing K] {a b : K}

/-- The weight returned by the loop is the sum of the weights it went through. -/
theorem wtailLoop_sum (e : Res (ℕ × K)) (he : ∀ r, e ≠ .val r) (T : K) (ws : List K) (c : ℕ) (s : K) {r : ℕ × K}
    (h : wtailLoop e T c s ws = .val r) : c ≤ r.1 ∧ r.2 = s + (ws.take (r.1 - c)).sum := by
  induction ws generalizing c s with
  | nil =>
    simp only [wtailLoop] at h
    split at h
    · exact absurd h (he r)
    · cases h; simp
  | cons w ws ih =>
    simp only [wtailLoop] at h
    split at h
    · obtain ⟨h1, h2⟩ := ih _ _ h
      refine ⟨by omega, ?_⟩
      rw [h2, show r.1 - c = (r.1 - (c + 1)) + 1 by omega, List.take_succ_cons, List.sum_cons]
      ring
    · cases h; simp

theorem innerProduct_affine (a b : K) (n : ℕ) (i : K) (xs ws : List K) {u : K} (h : innerProduct i n xs ws = .val u) :
    innerProduct (a * i + b * 0) n (xs.map fun x => a * x + b) ws = .val (a * u + b * (ws.take n).sum) := by
  have key : ∀ (n : ℕ) (i z : K) (xs ws : List K) (u : K), innerProduct i n xs ws = .val u →
      innerProduct (a * i + b * z) n (xs.map fun x => a * x + b) ws = .val (a * u + b * (z + (ws.take n).sum)) := by
    intro n
    induction n with
    | zero =>
      intro i z xs ws u h
      cases h
      simp [innerProduct]
    | succ n ih =>
      intro i z xs ws u h
      cases xs with
      | nil => cases h
      | cons x xs =>
        cases ws with
        | nil => cases h
        | cons w ws =>
          simp only [innerProduct, List.map_cons] at h ⊢
          have := ih _ (z + w) xs ws u h
          rw [List.take_succ_cons, List.sum_cons, ← add_assoc z, ← this]
          congr 1
          ring
  have := key n i 0 xs ws u h
  rwa [zero_add] at this

theorem innerProduct_ub (f : K → K) (n : ℕ) (i j : K) (xs ws : List K) (h : ∀ u, innerProduct i n xs ws ≠ .val u) :
    innerProduct i n xs ws = .ub ∧ innerProduct j n (xs.map f) ws = .ub := by
  induction n generalizing i j xs ws with
  | zero => exact absurd rfl (h i)
  | succ n ih =>
    cases xs with
    | nil => exact ⟨rfl, rfl⟩
    | cons x xs =>
      cases ws with
      | nil => exact ⟨rfl, rfl⟩
      | cons w ws => exact ih _ _ _ _ h

/-- **C54** Weighted tail quantiles and weighted tail means, after any history, any weights; the initial sample of the
constructor is rescaled, too. -/
theorem C54_wtail_affine (H : HeapImpl ℕ) (side : Side) (hasNaN : Bool) {k : ℕ} (x0 : K) (v0 : V)
    (h : List (Op (K × V) Unit)) (p : K) (wt : V → K) (ha : 0 < a) :
    wtailQuantile H side hasNaN wt k (a * x0 + b) v0 (Spec.mapPairs (fun x => a * x + b) id h) p
      = (fun x => a * x + b) <$> wtailQuantile H side hasNaN wt k x0 v0 h p ∧
    wtailMean H side hasNaN wt k (a * x0 + b) v0 (Spec.mapPairs (fun x => a * x + b) id h) p
      = (fun x => a * x + b) <$> wtailMean H side hasNaN wt k x0 v0 h p := by
  have hpred : ∀ y z : K, tailPred side (a * y + b) (a * z + b) = tailPred side y z := by
    intro y z
    cases side <;> simp [tailPred, affine_lt ha]
  have hr := tailRun_map (side := side) (side' := side) (f := fun x : K => a * x + b) hpred (id : V → V) H k x0 v0 h
  simp only [id_eq] at hr
  have hthr : wtailThreshold side ((pushes (Spec.mapPairs (fun x : K => a * x + b) id h)).map fun q => wt q.2) p
      = wtailThreshold side ((pushes h).map fun q => wt q.2) p := by
    rw [pushes_mapPairs, List.map_map]
    simp [Function.comp_def]
  unfold wtailQuantile wtailMean
  rw [hr, hthr]
  cases tailRun H side k x0 v0 h with
  | val s =>
    simp only [Res.map_val, Res.val_bind]
    rw [tailResult_map (side := side) hpred, tailVariateResult_map (side := side) hpred]
    cases tailResult H side s with
    | val t =>
      simp only [Res.map_val, Res.val_bind]
      cases tailVariateResult H side s with
      | val v =>
        simp only [Res.map_val, Res.val_bind, List.map_id]
        generalize wtailThreshold side ((pushes h).map fun q => wt q.2) p = T
        constructor
        · unfold wtailQuantileResult
          cases wtailLoop (nanOrThrow hasNaN) T 0 0 (v.map wt) with
          | val r =>
            simp only [Res.val_bind, List.getElem?_map]
            split
            · rfl
            · cases t[r.1 - 1]? <;> rfl
          | _ => rfl
        · unfold wtailMeanResult
          cases hl : wtailLoop (nanOrThrow hasNaN) T 0 0 (v.map wt) with
          | val r =>
            simp only [Res.val_bind]
            obtain ⟨-, hs⟩ := wtailLoop_sum (nanOrThrow hasNaN) (by cases hasNaN <;> simp [nanOrThrow]) T _ 0 0 hl
            rw [zero_add, Nat.sub_zero] at hs
            by_cases hv : ∃ u, innerProduct 0 r.1 t (v.map wt) = .val u
            · obtain ⟨u, hu⟩ := hv
              have := innerProduct_affine a b r.1 0 t (v.map wt) hu
              rw [mul_zero, mul_zero, add_zero] at this
              rw [hu, this, Res.val_bind, Res.val_bind, ← hs]
              by_cases h0 : r.2 = 0
              · rw [h0, fdiv_zero, fdiv_zero]; rfl
              · rw [fdiv_ne h0, fdiv_ne h0, Res.map_val]
                congr 1
                field_simp
            · push Not at hv
              obtain ⟨h1, h2⟩ := innerProduct_ub (fun x => a * x + b) r.1 0 0 t (v.map wt) hv
              rw [h1, h2]
              rfl
          | _ => rfl
      | _ => exact ⟨rfl, rfl⟩
    | _ => exact ⟨rfl, rfl⟩
  | _ => exact ⟨rfl, rfl⟩

end tails

/-! ## Concrete cases -/

example : (epsqQuantileSet .quadratic true [1 / 4, 1 / 2, 3 / 4]).answer
      (onlyPushes (([3, 1, 4, 1, 5, 9, 2, 6, 5, 3, 5] : List ℚ).map fun x => 2 * x + 7)) (2 / 5)
    = (fun r => (fun v => 2 * v + 7) <$> r) <$> (epsqQuantileSet .quadratic true [1 / 4, 1 / 2, 3 / 4]).answer
      (onlyPushes [3, 1, 4, 1, 5, 9, 2, 6, 5, 3, 5]) (2 / 5) :=
  C54_epsq_quantile .quadratic true (by decide +kernel) (by simp) (by simp) (by norm_num) _ (by simp) _

/-- A stream for the examples: six samples with weights. -/
def affineStream : List (ℚ × ℚ) := [(0, 1), (4, 2), (1, 1), (1, 1), (1, 3), (2, 1)]

example : (wmedianSet).answer (onlyPushes affineStream) () = .val 1 ∧
    (wmedianSet).answer (onlyPushes (affineStream.map fun q => (2 * q.1 + 7, q.2))) () = .val (2 * 1 + 7) := by
  have h := (C54_median (a := 2) (b := 7) (by norm_num) affineStream (by decide)).2
  have e : (wmedianSet).answer (onlyPushes affineStream) () = .val 1 := by decide +kernel
  exact ⟨e, by rw [h, e, Res.map_val]⟩

example : (wdmedianSet (-100 : ℚ) 100 2 2 0).answer (onlyPushes affineStream) () = .val (3 / 2) := by
  decide +kernel

example : (wdmedianSet (-100 : ℚ) 100 2 2 0).answer (onlyPushes (affineStream.map fun q => (2 * q.1 + 7, q.2))) ()
    = (fun v => 2 * v + 7) <$> (wdmedianSet (-10 : ℚ) 10 2 2 0).answer (onlyPushes affineStream) () :=
  (C54_density_median (by norm_num) (by norm_num) (by norm_num) 0 affineStream (by decide +kernel) (by decide +kernel)
    (by decide)).2

example : (wcmedianSet 4).answer (onlyPushes affineStream) () = .val (13 / 4) := by decide +kernel

example (H : HeapImpl ℕ) : wtailMean H .right true id 3 7 0
      (Spec.mapPairs (fun x => 2 * x + 7) id (onlyPushes (Q := Unit) affineStream)) (1 / 2 : ℚ)
    = (fun x => 2 * x + 7) <$> wtailMean H .right true id 3 0 0 (onlyPushes affineStream) (1 / 2) := by
  have := (C54_wtail_affine H .right true (k := 3) (a := 2) (b := 7) 0 0 (onlyPushes affineStream) (1 / 2 : ℚ) id
    (by norm_num)).2
  simpa using this

end Acc
