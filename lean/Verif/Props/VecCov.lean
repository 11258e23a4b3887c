import Verif.Props.VecStats
import Verif.Props.Basic

/-!
# C53, continued: weighted statistics and covariances of vector samples (also C08)
-/

set_option linter.unusedSectionVars false

namespace Acc

section main

variable {K : Type} [Field K] [DecidableEq K] [Container]

/-! ## Weighted sum and moments -/

section weighted
variable {d : ℕ} {x0 : List K} (h0 : x0.length = d) {ps : List (List K × K)} (h : ∀ p ∈ ps, p.1.length = d)
include h0 h

/-- **C53**, weighted sum. -/
theorem C53_weighted_sum : vweightedSumRun x0 ps =
    .val ((List.range d).map fun i =>
      .val (weightedSumRun (x0.getD i 0) (ps.map fun p => (p.1.getD i 0, p.2)))) := by
  unfold vweightedSumRun
  rw [vec_eq h0, vmulS_byCoord]
  have key : ∀ (ps : List (List K × K)) (a : ℕ → K), (∀ p ∈ ps, p.1.length = d) →
      foldRes (fun s (p : List K × K) => vplusAssign s (vmulS (vec p.1) p.2)) (byCoord d fun i => .val (a i)) ps =
        .val (byCoord d fun i => .val ((ps.map fun p => (coord i p.1, p.2)).foldl weightedSumStep (a i))) := by
    intro ps
    induction ps with
    | nil => intro a _; rfl
    | cons p ps ih =>
      intro a hp
      simp only [foldRes, vec_eq (hp p (by simp)), vmulS_byCoord, vplusAssign_byCoord, Res.val_bind, lift2,
        Res.pure_eq]
      exact ih (fun i => a i + coord i p.1 * p.2) fun y hy => hp y (by simp [hy])
  exact key ps (fun i => coord i x0 * 1) h

/-- **C53**, weighted moments. -/
theorem C53_weighted_moment {N : ℕ} (hN : 0 < N) : vweightedMomentRun N x0 ps =
    .val ((List.range d).map fun i =>
      weightedMomentRun N (x0.getD i 0) (ps.map fun p => (p.1.getD i 0, p.2))) := by
  have key : ∃ W, foldRes (fun (s : VWeight K) (p : List K × K) => do
        let q ← vpow (vec p.1) N
        let v ← vplusAssign s.v (q.map fun a => lift2 (· * ·) (.val p.2) a)
        return (⟨sumStep s.sumW p.2, v⟩ : VWeight K)) ⟨0, vmulS (vec x0) 1⟩ ps =
      .val ⟨W, byCoord d fun i =>
        .val ((ps.map fun p => (coord i p.1, p.2)).foldl (WMomentSt.push N) ⟨0, coord i x0 * 1⟩).sum⟩ ∧
      ∀ i, ((ps.map fun p => (coord i p.1, p.2)).foldl (WMomentSt.push N) ⟨0, coord i x0 * 1⟩).sumW = W := by
    induction ps using List.reverseRecOn with
    | nil =>
      refine ⟨0, ?_, fun _ => rfl⟩
      rw [vec_eq h0, vmulS_byCoord]
      rfl
    | append_singleton ps p ih =>
      obtain ⟨W, h1, h2⟩ := ih fun y hy => h y (by simp [hy])
      refine ⟨sumStep W p.2, ?_, fun i => ?_⟩
      · rw [foldRes_append, h1]
        simp only [Res.val_bind, foldRes, vec_eq (h p (by simp)), vpow_eq _ N (by omega : N ≠ 0), map_byCoord,
          vplusAssign_byCoord, lift2, Res.pure_eq, List.map_append, List.foldl_append, List.map_singleton,
          List.foldl_cons, List.foldl_nil]
        rfl
      · simp only [List.map_append, List.foldl_append, List.map_singleton, List.foldl_cons, List.foldl_nil]
        exact congrArg (sumStep · p.2) (h2 i)
  obtain ⟨W, h1, h2⟩ := key
  unfold vweightedMomentRun
  rw [h1]
  simp only [Res.val_bind, vdivS_byCoord, Res.pure_eq]
  congr 1
  apply byCoord_congr
  intro i _
  rw [← h2 i]
  rfl

end weighted

/-! ## Weighted variance -/

theorem wvarianceStep_plain (cnt : ℕ) (W : K) {m v : Res K} (hm : Plain m) (hv : Plain v) (p : K × K) :
    weightedVarianceStep cnt W m v p = if cnt > 1 then
      lift2 (· + ·) ((v >>= fun v => pure (v * (W - p.2))) >>= fun v => fdiv v W)
        ((lift2 (· * ·) (lift2 (· - ·) (.val p.1) m) (lift2 (· - ·) (.val p.1) m) >>= fun q => pure (q * p.2)) >>=
          fun q => fdiv q (W - p.2)) else v := by
  unfold weightedVarianceStep
  split_ifs
  · obtain ⟨m, rfl⟩ | rfl := hm <;> obtain ⟨v, rfl⟩ | rfl := hv <;>
      simp only [lift2, Res.val_bind, Res.nonfinite_bind, Res.pure_eq]
    unfold fdiv
    split_ifs <;> rfl
  · rfl

theorem wvariance_state (P : MeanProvider (K × K) K) (x0 : K) (ps : List (K × K)) :
    (ps.foldl (WVarianceSt.push P) ⟨P.init, 0, 0, fdiv x0 1⟩).m = P.run ps ∧
    (ps.foldl (WVarianceSt.push P) ⟨P.init, 0, 0, fdiv x0 1⟩).cnt = ps.length ∧
    (ps.foldl (WVarianceSt.push P) ⟨P.init, 0, 0, fdiv x0 1⟩).sumW = (ps.map Prod.snd).foldl sumStep 0 := by
  induction ps using List.reverseRecOn with
  | nil => exact ⟨rfl, rfl, rfl⟩
  | append_singleton ps p ih =>
    rw [List.foldl_append, run_snoc]
    simp only [List.foldl_cons, List.foldl_nil, WVarianceSt.push, ih.1, ih.2.1, ih.2.2, List.length_append,
      List.map_append, List.foldl_append]
    simp

theorem wvariance_snoc (P : MeanProvider (K × K) K) (x0 : K) (ps : List (K × K)) (p : K × K) :
    weightedVarianceRun P x0 (ps ++ [p]) =
      weightedVarianceStep (ps.length + 1) (sumStep ((ps.map Prod.snd).foldl sumStep 0) p.2)
        (P.read (P.run (ps ++ [p]))) (weightedVarianceRun P x0 ps) p := by
  have h := wvariance_state P x0 ps
  unfold weightedVarianceRun
  rw [List.foldl_append, run_snoc]
  simp only [List.foldl_cons, List.foldl_nil, WVarianceSt.push, h.1, h.2.1, h.2.2]

theorem plain_lift2 {f : K → K → K} {a b : Res K} (ha : Plain a) (hb : Plain b) : Plain (lift2 f a b) :=
  plain_bind ha fun _ => plain_bind hb fun _ => plain_val _

theorem wvariance_plain {P : MeanProvider (K × K) K} (hP : PlainMeans P) (x0 : K) (ps : List (K × K)) :
    Plain (weightedVarianceRun P x0 ps) := by
  induction ps using List.reverseRecOn with
  | nil => exact plain_fdiv _ _
  | append_singleton ps p ih =>
    rw [wvariance_snoc, wvarianceStep_plain _ _ (hP _) ih]
    split_ifs
    · have hm := plain_lift2 (f := (· - ·)) (plain_val p.1) (hP (ps ++ [p]))
      exact plain_lift2 (plain_bind (plain_bind ih fun _ => plain_val _) fun _ => plain_fdiv _ _)
        (plain_bind (plain_bind (plain_lift2 hm hm) fun _ => plain_val _) fun _ => plain_fdiv _ _)
    · exact ih

/-- **C53**, weighted variance (recursive), on top of any weighted mean that is taken componentwise. -/
theorem C53_weighted_variance {d : ℕ} {x0 : List K} (h0 : x0.length = d) {V : VMeanProvider (List K × K) K}
    {P : ℕ → MeanProvider (K × K) K}
    (hT : Tracks V P (fun i p => (p.1.getD i 0, p.2)) d fun p => p.1.length = d) (hP : ∀ i, PlainMeans (P i))
    {ps : List (List K × K)} (h : ∀ p ∈ ps, p.1.length = d) :
    vweightedVarianceRun V x0 ps =
      .val ((List.range d).map fun i =>
        weightedVarianceRun (P i) (x0.getD i 0) (ps.map fun p => (p.1.getD i 0, p.2))) := by
  have key : ∃ m, foldRes V.push V.init ps = .val m ∧
      foldRes (VWVarianceSt.push V) ⟨V.init, 0, 0, vdivS (vec x0) 1⟩ ps =
        .val ⟨m, (ps.map Prod.snd).foldl sumStep 0, ps.length, byCoord d fun i =>
          weightedVarianceRun (P i) (coord i x0) (ps.map fun p => (coord i p.1, p.2))⟩ := by
    induction ps using List.reverseRecOn with
    | nil =>
      refine ⟨_, rfl, ?_⟩
      rw [vec_eq h0, vdivS_byCoord]
      rfl
    | append_singleton ps p ih =>
      obtain ⟨m, h1, h2⟩ := ih fun y hy => h y (by simp [hy])
      obtain ⟨m', h3, h4, h5⟩ := hT.snoc h h1
      refine ⟨m', h4, ?_⟩
      rw [foldRes_append, h2]
      simp only [Res.val_bind, foldRes, VWVarianceSt.push, h3]
      have es : (List.map Prod.snd (ps ++ [p])).foldl sumStep 0 =
          sumStep ((ps.map Prod.snd).foldl sumStep 0) p.2 := by
        simp [List.foldl_append]
      rw [es]
      split_ifs with hc
      · rw [h5, vec_eq (h p (by simp))]
        simp only [vzip_byCoord, vmulS_byCoord, vdivS_byCoord, Res.val_bind, Res.pure_eq, List.length_append,
          List.length_singleton]
        congr 2
        apply byCoord_congr
        intro i _
        rw [List.map_append, List.map_singleton, wvariance_snoc, wvarianceStep_plain _ _ (hP i _) (wvariance_plain (hP i) _ _), List.length_map, List.map_map,
          if_pos hc]
        rfl
      · simp only [Res.pure_eq, Res.val_bind, List.length_append, List.length_singleton]
        congr 2
        apply byCoord_congr
        intro i _
        rw [List.map_append, List.map_singleton, wvariance_snoc, wvarianceStep_plain _ _ (hP i _) (wvariance_plain (hP i) _ _), List.length_map, List.map_map,
          if_neg hc]
  obtain ⟨m, -, h2⟩ := key
  unfold vweightedVarianceRun
  rw [h2]
  rfl

/-! ## Covariances -/

theorem covStep_plain (cnt : ℕ) {mx my c : Res K} (hx : Plain mx) (hy : Plain my) (hc : Plain c) (x y : K) :
    covarianceStep cnt mx my c x y = if cnt > 1 then
      lift2 (· + ·) ((c >>= fun v => pure (v * ((cnt : K) - 1))) >>= fun v => fdiv v (cnt : K))
        (lift2 (· * ·) (lift2 (· - ·) my (.val y)) (lift2 (· - ·) mx (.val x)) >>= fun q =>
          fdiv q ((cnt : K) - 1)) else c := by
  unfold covarianceStep
  split_ifs
  · obtain ⟨mx, rfl⟩ | rfl := hx <;> obtain ⟨my, rfl⟩ | rfl := hy <;> obtain ⟨c, rfl⟩ | rfl := hc <;>
      simp only [lift2, Res.val_bind, Res.nonfinite_bind, Res.pure_eq]
  · rfl

theorem cov_state (P Q : MeanProvider K K) (x0 y0 : K) (ps : List (K × K)) :
    (ps.foldl (CovSt.push P Q) (CovSt.init P Q x0 y0)).mx = P.run (ps.map Prod.fst) ∧
    (ps.foldl (CovSt.push P Q) (CovSt.init P Q x0 y0)).my = Q.run (ps.map Prod.snd) ∧
    (ps.foldl (CovSt.push P Q) (CovSt.init P Q x0 y0)).cnt = ps.length := by
  induction ps using List.reverseRecOn with
  | nil => exact ⟨rfl, rfl, rfl⟩
  | append_singleton ps p ih =>
    rw [List.foldl_append, List.map_append, List.map_append, List.map_singleton, List.map_singleton, run_snoc,
      run_snoc]
    simp only [List.foldl_cons, List.foldl_nil, CovSt.push, ih.1, ih.2.1, ih.2.2, List.length_append]
    simp

theorem cov_snoc (P Q : MeanProvider K K) (x0 y0 : K) (ps : List (K × K)) (p : K × K) :
    covarianceRun P Q x0 y0 (ps ++ [p]) =
      covarianceStep (ps.length + 1) (P.read (P.run (ps.map Prod.fst ++ [p.1])))
        (Q.read (Q.run (ps.map Prod.snd ++ [p.2]))) (covarianceRun P Q x0 y0 ps) p.1 p.2 := by
  have h := cov_state P Q x0 y0 ps
  unfold covarianceRun
  rw [List.foldl_append, run_snoc, run_snoc]
  simp only [List.foldl_cons, List.foldl_nil, CovSt.push, h.1, h.2.1, h.2.2]

theorem cov_plain {P Q : MeanProvider K K} (hP : PlainMeans P) (hQ : PlainMeans Q) (x0 y0 : K) (ps : List (K × K)) :
    Plain (covarianceRun P Q x0 y0 ps) := by
  induction ps using List.reverseRecOn with
  | nil => exact plain_bind (plain_fdiv _ _) fun _ => plain_bind (plain_fdiv _ _) fun _ => plain_val _
  | append_singleton ps p ih =>
    rw [cov_snoc, covStep_plain _ (hP _) (hQ _) ih]
    split_ifs
    · exact plain_lift2 (plain_bind (plain_bind ih fun _ => plain_val _) fun _ => plain_fdiv _ _)
        (plain_bind (plain_lift2 (plain_lift2 (hQ _) (plain_val _)) (plain_lift2 (hP _) (plain_val _)))
          fun _ => plain_fdiv _ _)
    · exact ih

/-- **C53** and **C08**, vector samples and a scalar covariate: component `i` is the covariance of the component `i`
of the samples and the covariate. -/
theorem C53_covariance_sample {d : ℕ} {x0 : List K} (h0 : x0.length = d) (y0 : K) {V : VMeanProvider (List K) K}
    {P : ℕ → MeanProvider K K} {Q : MeanProvider K K}
    (hT : Tracks V P (fun i x => x.getD i 0) d fun x => x.length = d) (hP : ∀ i, PlainMeans (P i))
    (hQ : PlainMeans Q) {ps : List (List K × K)} (h : ∀ p ∈ ps, p.1.length = d) :
    covVSRun V Q x0 y0 ps =
      .val ((List.range d).map fun i =>
        covarianceRun (P i) Q (x0.getD i 0) y0 (ps.map fun p => (p.1.getD i 0, p.2))) := by
  have key : ∃ m, foldRes V.push V.init (ps.map Prod.fst) = .val m ∧
      foldRes (covVSPush V Q)
        ⟨V.init, Q.init, 0, (vdivS (vec x0) 1).map fun a => lift2 (· * ·) a (fdiv y0 1)⟩ ps =
        .val ⟨m, Q.run (ps.map Prod.snd), ps.length, byCoord d fun i =>
          covarianceRun (P i) Q (coord i x0) y0 (ps.map fun p => (coord i p.1, p.2))⟩ := by
    induction ps using List.reverseRecOn with
    | nil =>
      refine ⟨_, rfl, ?_⟩
      rw [vec_eq h0, vdivS_byCoord, map_byCoord]
      rfl
    | append_singleton ps p ih =>
      obtain ⟨m, h1, h2⟩ := ih fun y hy => h y (by simp [hy])
      obtain ⟨m', h3, h4, h5⟩ := hT.snoc (xs := ps.map Prod.fst) (x := p.1) (by
        intro y hy
        rcases List.mem_append.1 hy with hy | hy
        · obtain ⟨q, hq, rfl⟩ := List.mem_map.1 hy
          exact h q (by simp [hq])
        · rw [List.mem_singleton.1 hy]
          exact h p (by simp)) h1
      refine ⟨m', by rw [List.map_append]; exact h4, ?_⟩
      rw [foldRes_append, h2]
      simp only [Res.val_bind, foldRes, covVSPush, h3]
      have ey : Q.run (List.map Prod.snd (ps ++ [p])) = Q.push (Q.run (ps.map Prod.snd)) p.2 := by
        rw [List.map_append, List.map_singleton, run_snoc]
      rw [ey]
      split_ifs with hc
      · rw [h5, vec_eq (h p (by simp))]
        simp only [vzip_byCoord, vmulS_byCoord, vdivS_byCoord, map_byCoord, Res.val_bind, Res.pure_eq,
          List.length_append, List.length_singleton]
        congr 2
        apply byCoord_congr
        intro i _
        rw [List.map_append, List.map_singleton, cov_snoc, covStep_plain _ (hP i _) (hQ _) (cov_plain (hP i) hQ _ _ _), List.length_map, List.map_map, List.map_map,
          if_pos hc, ← run_snoc, List.map_map]
        rfl
      · simp only [Res.pure_eq, Res.val_bind, List.length_append, List.length_singleton]
        congr 2
        apply byCoord_congr
        intro i _
        rw [List.map_append, List.map_singleton, cov_snoc, covStep_plain _ (hP i _) (hQ _) (cov_plain (hP i) hQ _ _ _), List.length_map, List.map_map, List.map_map,
          if_neg hc]
  obtain ⟨m, -, h2⟩ := key
  unfold covVSRun
  rw [h2]
  rfl

/-- **C53** and **C08**, scalar samples and a vector covariate. -/
theorem C53_covariance_variate {d : ℕ} (x0 : K) {y0 : List K} (h0 : y0.length = d) {V : VMeanProvider (List K) K}
    {Q : ℕ → MeanProvider K K} {P : MeanProvider K K}
    (hT : Tracks V Q (fun i x => x.getD i 0) d fun x => x.length = d) (hQ : ∀ i, PlainMeans (Q i))
    (hP : PlainMeans P) {ps : List (K × List K)} (h : ∀ p ∈ ps, p.2.length = d) :
    covSVRun P V x0 y0 ps =
      .val ((List.range d).map fun i =>
        covarianceRun P (Q i) x0 (y0.getD i 0) (ps.map fun p => (p.1, p.2.getD i 0))) := by
  have key : ∃ m, foldRes V.push V.init (ps.map Prod.snd) = .val m ∧
      foldRes (covSVPush P V)
        ⟨P.init, V.init, 0, (vdivS (vec y0) 1).map fun a => lift2 (· * ·) (fdiv x0 1) a⟩ ps =
        .val ⟨P.run (ps.map Prod.fst), m, ps.length, byCoord d fun i =>
          covarianceRun P (Q i) x0 (coord i y0) (ps.map fun p => (p.1, coord i p.2))⟩ := by
    induction ps using List.reverseRecOn with
    | nil =>
      refine ⟨_, rfl, ?_⟩
      rw [vec_eq h0, vdivS_byCoord, map_byCoord]
      rfl
    | append_singleton ps p ih =>
      obtain ⟨m, h1, h2⟩ := ih fun y hy => h y (by simp [hy])
      obtain ⟨m', h3, h4, h5⟩ := hT.snoc (xs := ps.map Prod.snd) (x := p.2) (by
        intro y hy
        rcases List.mem_append.1 hy with hy | hy
        · obtain ⟨q, hq, rfl⟩ := List.mem_map.1 hy
          exact h q (by simp [hq])
        · rw [List.mem_singleton.1 hy]
          exact h p (by simp)) h1
      refine ⟨m', by rw [List.map_append]; exact h4, ?_⟩
      rw [foldRes_append, h2]
      simp only [Res.val_bind, foldRes, covSVPush, h3]
      have ey : P.run (List.map Prod.fst (ps ++ [p])) = P.push (P.run (ps.map Prod.fst)) p.1 := by
        rw [List.map_append, List.map_singleton, run_snoc]
      rw [ey]
      split_ifs with hc
      · rw [h5, vec_eq (h p (by simp))]
        simp only [vzip_byCoord, vmulS_byCoord, vdivS_byCoord, map_byCoord, Res.val_bind, Res.pure_eq,
          List.length_append, List.length_singleton]
        congr 2
        apply byCoord_congr
        intro i _
        rw [List.map_append, List.map_singleton, cov_snoc, covStep_plain _ (hP _) (hQ i _) (cov_plain hP (hQ i) _ _ _), List.length_map, List.map_map, List.map_map,
          if_pos hc, ← run_snoc, List.map_map]
        rfl
      · simp only [Res.pure_eq, Res.val_bind, List.length_append, List.length_singleton]
        congr 2
        apply byCoord_congr
        intro i _
        rw [List.map_append, List.map_singleton, cov_snoc, covStep_plain _ (hP _) (hQ i _) (cov_plain hP (hQ i) _ _ _), List.length_map, List.map_map, List.map_map,
          if_neg hc]
  obtain ⟨m, -, h2⟩ := key
  unfold covSVRun
  rw [h2]
  rfl

/-- **C53** and **C08**, vector samples and a vector covariate of the same dimension: entry `(i, j)` is the
covariance of component `j` of the samples and component `i` of the covariates. -/
theorem C53_covariance_matrix {d : ℕ} {V W : VMeanProvider (List K) K} {P Q : ℕ → MeanProvider K K}
    (hV : Tracks V P (fun i x => x.getD i 0) d fun x => x.length = d) (hP : ∀ i, PlainMeans (P i))
    (hW : Tracks W Q (fun i x => x.getD i 0) d fun x => x.length = d) (hQ : ∀ i, PlainMeans (Q i))
    {ps : List (List K × List K)} (h : ∀ p ∈ ps, p.1.length = d ∧ p.2.length = d) :
    covVVRun V W (List.replicate d 0) (List.replicate d 0) ps =
      .val ((List.range d).map fun i => (List.range d).map fun j =>
        covarianceRun (P j) (Q i) 0 0 (ps.map fun p => (p.1.getD j 0, p.2.getD i 0))) := by
  have key : ∃ m n, foldRes V.push V.init (ps.map Prod.fst) = .val m ∧
      foldRes W.push W.init (ps.map Prod.snd) = .val n ∧
      foldRes (covVVPush V W)
        ⟨V.init, W.init, 0, outer (vdivS (vec (List.replicate d 0)) 1) (vdivS (vec (List.replicate d 0)) 1)⟩ ps =
        .val ⟨m, n, ps.length, byCoord d fun i => byCoord d fun j =>
          covarianceRun (P j) (Q i) 0 0 (ps.map fun p => (coord j p.1, coord i p.2))⟩ := by
    induction ps using List.reverseRecOn with
    | nil =>
      refine ⟨_, _, rfl, rfl, ?_⟩
      rw [vec_eq (List.length_replicate (n := d) (a := (0 : K))), vdivS_byCoord]
      simp only [foldRes, outer, map_byCoord]
      congr 2
      apply byCoord_congr
      intro i hi
      apply byCoord_congr
      intro j hj
      simp only [coord, List.getD_eq_getElem?_getD, List.getElem?_replicate, hi, hj, if_true, Option.getD_some]
      rfl
    | append_singleton ps p ih =>
      obtain ⟨m, n, h1, k1, h2⟩ := ih fun y hy => h y (by simp [hy])
      obtain ⟨m', h3, h4, h5⟩ := hV.snoc (xs := ps.map Prod.fst) (x := p.1) (by
        intro y hy
        rcases List.mem_append.1 hy with hy | hy
        · obtain ⟨q, hq, rfl⟩ := List.mem_map.1 hy
          exact (h q (by simp [hq])).1
        · rw [List.mem_singleton.1 hy]
          exact (h p (by simp)).1) h1
      obtain ⟨n', k3, k4, k5⟩ := hW.snoc (xs := ps.map Prod.snd) (x := p.2) (by
        intro y hy
        rcases List.mem_append.1 hy with hy | hy
        · obtain ⟨q, hq, rfl⟩ := List.mem_map.1 hy
          exact (h q (by simp [hq])).2
        · rw [List.mem_singleton.1 hy]
          exact (h p (by simp)).2) k1
      refine ⟨m', n', by rw [List.map_append]; exact h4, by rw [List.map_append]; exact k4, ?_⟩
      rw [foldRes_append, h2]
      simp only [Res.val_bind, foldRes, covVVPush, h3, k3]
      split_ifs with hc
      · rw [h5, k5, vec_eq (h p (by simp)).1, vec_eq (h p (by simp)).2]
        simp only [vzip_byCoord, vmulS_byCoord, vdivS_byCoord, map_byCoord, Res.val_bind, Res.pure_eq,
          List.length_append, List.length_singleton, outer, mplus, byCoord_length, if_true, zipWith_byCoord]
        congr 2
        apply byCoord_congr
        intro i _
        apply byCoord_congr
        intro j _
        rw [List.map_append, List.map_singleton, cov_snoc, covStep_plain _ (hP j _) (hQ i _) (cov_plain (hP j) (hQ i) _ _ _), List.length_map, List.map_map, List.map_map,
          if_pos hc, List.map_map, List.map_map]
        rfl
      · simp only [Res.pure_eq, Res.val_bind, List.length_append, List.length_singleton]
        congr 2
        apply byCoord_congr
        intro i _
        apply byCoord_congr
        intro j _
        rw [List.map_append, List.map_singleton, cov_snoc, covStep_plain _ (hP j _) (hQ i _) (cov_plain (hP j) (hQ i) _ _ _), List.length_map, List.map_map, List.map_map,
          if_neg hc]
  obtain ⟨m, n, -, -, h2⟩ := key
  unfold covVVRun
  rw [h2]
  rfl

/-- **C53** and **C08** fail for vectors of different dimensions: whatever the initial vectors of these dimensions,
the second pair adds matrices of different shape. -/
theorem C53_covariance_shape_fails {d e : ℕ} (hde : d ≠ e) {x0 y0 : List K} (hx0 : x0.length = d)
    (hy0 : y0.length = e) {V W : VMeanProvider (List K) K} {P Q : ℕ → MeanProvider K K}
    (hV : Tracks V P (fun i x => x.getD i 0) d fun x => x.length = d)
    (hW : Tracks W Q (fun i x => x.getD i 0) e fun x => x.length = e)
    {p q : List K × List K} (hp : p.1.length = d ∧ p.2.length = e) (hq : q.1.length = d ∧ q.2.length = e)
    (ps : List (List K × List K)) : covVVRun V W x0 y0 (p :: q :: ps) = .ub := by
  obtain ⟨m, h1, -⟩ := hV [p.1] (by simpa using hp.1)
  obtain ⟨n, k1, -⟩ := hW [p.2] (by simpa using hp.2)
  obtain ⟨m', h3, h4, h5⟩ := hV.snoc (xs := [p.1]) (x := q.1) (by simp [hp.1, hq.1]) h1
  obtain ⟨n', k3, k4, k5⟩ := hW.snoc (xs := [p.2]) (x := q.2) (by simp [hp.2, hq.2]) k1
  have a1 : V.push V.init p.1 = .val m := by
    simp only [foldRes] at h1
    cases hz : V.push V.init p.1 with
    | val a => rw [hz] at h1; exact h1
    | _ => rw [hz] at h1; cases h1
  have a2 : W.push W.init p.2 = .val n := by
    simp only [foldRes] at k1
    cases hz : W.push W.init p.2 with
    | val a => rw [hz] at k1; exact k1
    | _ => rw [hz] at k1; cases k1
  unfold covVVRun
  simp only [foldRes, covVVPush, a1, a2, Res.val_bind]
  rw [if_neg (by omega)]
  simp only [Res.pure_eq, Res.val_bind, h3, k3]
  rw [if_pos (by omega), h5, k5, vec_eq hq.1, vec_eq hq.2, vec_eq hx0, vec_eq hy0]
  simp only [vzip_byCoord, vdivS_byCoord, vmulS_byCoord, outer, map_byCoord, Res.val_bind, mplus]
  rw [if_neg]
  · rfl
  · intro hl
    have := congrArg List.length hl
    simp only [byCoord_length] at this
    exact hde this

/-! ## Closed forms, for an initial vector of zeros -/

section closed
variable [CharZero K]

/-- The stream of the components `i`. -/
def comp (i : ℕ) (xs : List (List K)) : List K := xs.map fun x => x.getD i 0

theorem replicate_getD (d i : ℕ) : (List.replicate d (0 : K)).getD i 0 = 0 := by
  rw [List.getD_eq_getElem?_getD, List.getElem?_replicate]
  split_ifs <;> rfl

theorem tracks_lazy (d : ℕ) : Tracks (lazyVMean (List.replicate d (0 : K))) (fun _ => lazyMean 0)
    (fun i x => x.getD i 0) d (fun x => x.length = d) := by
  have h := (C53_mean (List.length_replicate (n := d) (a := (0 : K)))).1
  simpa only [replicate_getD] using h

theorem tracks_imm (d : ℕ) : Tracks (immVMean (List.replicate d (0 : K))) (fun _ => immMean 0)
    (fun i x => x.getD i 0) d (fun x => x.length = d) := by
  have h := (C53_mean (List.length_replicate (n := d) (a := (0 : K)))).2
  simpa only [replicate_getD] using h

/-- **C53.** The mean of a non-empty stream of vectors, in both implementations: the vector of the means. -/
theorem C53_mean_value {d : ℕ} {xs : List (List K)} (hne : xs ≠ []) (h : ∀ x ∈ xs, x.length = d) :
    (∃ s, foldRes (lazyVMean (List.replicate d 0)).push (lazyVMean (List.replicate d 0)).init xs = .val s ∧
      (lazyVMean (List.replicate d 0)).read s = (List.range d).map fun i => .val (Spec.mean (comp i xs)))
    ∧ ∃ s, foldRes (immVMean (List.replicate d 0)).push (immVMean (List.replicate d 0)).init xs = .val s ∧
      (immVMean (List.replicate d 0)).read s = (List.range d).map fun i => .val (Spec.mean (comp i xs)) := by
  have hc : ∀ i, comp i xs ≠ [] := fun i => by simpa [comp] using hne
  obtain ⟨s, h1, h2⟩ := tracks_lazy d xs h
  obtain ⟨t, k1, k2⟩ := tracks_imm d xs h
  refine ⟨⟨s, h1, ?_⟩, t, k1, ?_⟩
  · rw [h2]
    exact byCoord_congr fun i _ => lazyMean_correct _ (hc i)
  · rw [k2]
    exact byCoord_congr fun i _ => immMean_correct 0 _ (hc i)

/-- **C53.** The variance of a non-empty stream of vectors, in the four implementations: the vector of the
variances. -/
theorem C53_variance_value {d : ℕ} {xs : List (List K)} (hne : xs ≠ []) (h : ∀ x ∈ xs, x.length = d) :
    ∀ V ∈ [lazyVMean (List.replicate d (0 : K)), immVMean (List.replicate d (0 : K))],
      vvarianceRun V (List.replicate d 0) xs = .val ((List.range d).map fun i => .val (Spec.variance (comp i xs)))
      ∧ vlazyVarianceRun V (List.replicate d 0) xs =
        .val ((List.range d).map fun i => .val (Spec.variance (comp i xs))) := by
  have hc : ∀ i, comp i xs ≠ [] := fun i => by simpa [comp] using hne
  have key : ∀ (V : VMeanProvider (List K) K) (P : MeanProvider K K), PlainMeans P → P.Correct →
      Tracks V (fun _ => P) (fun i x => x.getD i 0) d (fun x => x.length = d) →
      vvarianceRun V (List.replicate d 0) xs = .val ((List.range d).map fun i => .val (Spec.variance (comp i xs)))
      ∧ vlazyVarianceRun V (List.replicate d 0) xs =
        .val ((List.range d).map fun i => .val (Spec.variance (comp i xs))) := by
    intro V P h1 h2 h3
    obtain ⟨a, b⟩ := C53_variance (List.length_replicate (n := d) (a := (0 : K))) h3 (fun _ => h1) h
    rw [a, b]
    constructor
    · congr 1
      apply byCoord_congr
      intro i _
      rw [replicate_getD]
      exact C06_variance P h2 _ (hc i)
    · congr 1
      apply byCoord_congr
      intro i _
      rw [replicate_getD]
      exact C06_lazy_variance P h2 _ (hc i)
  intro V hV
  simp only [List.mem_cons, List.not_mem_nil, or_false] at hV
  rcases hV with rfl | rfl
  · exact key _ _ (lazyMean_plain 0) lazyMean_correct (tracks_lazy d)
  · exact key _ _ (immMean_plain 0) (immMean_correct 0) (tracks_imm d)

/-- **C08**, vector covariate and scalar sample, or scalar covariate and vector sample: the vector of the
covariances. -/
theorem C08_vector {d : ℕ} :
    (∀ ps : List (K × List K), ps ≠ [] → (∀ p ∈ ps, p.2.length = d) →
      ∀ V ∈ [lazyVMean (List.replicate d (0 : K)), immVMean (List.replicate d (0 : K))],
      ∀ P ∈ [lazyMean (0 : K), immMean 0],
      covSVRun P V 0 (List.replicate d 0) ps =
        .val ((List.range d).map fun i => .val (Spec.covariance (ps.map fun p => (p.1, p.2.getD i 0)))))
    ∧ ∀ ps : List (List K × K), ps ≠ [] → (∀ p ∈ ps, p.1.length = d) →
      ∀ V ∈ [lazyVMean (List.replicate d (0 : K)), immVMean (List.replicate d (0 : K))],
      ∀ P ∈ [lazyMean (0 : K), immMean 0],
      covVSRun V P (List.replicate d 0) 0 ps =
        .val ((List.range d).map fun i => .val (Spec.covariance (ps.map fun p => (p.1.getD i 0, p.2)))) := by
  have prov : ∀ P ∈ [lazyMean (0 : K), immMean 0], PlainMeans P ∧ P.Correct := by
    intro P hP
    simp only [List.mem_cons, List.not_mem_nil, or_false] at hP
    rcases hP with rfl | rfl
    · exact ⟨lazyMean_plain 0, lazyMean_correct⟩
    · exact ⟨immMean_plain 0, immMean_correct 0⟩
  have vprov : ∀ V ∈ [lazyVMean (List.replicate d (0 : K)), immVMean (List.replicate d (0 : K))],
      ∃ P, (PlainMeans P ∧ P.Correct) ∧
        Tracks V (fun _ => P) (fun i x => x.getD i 0) d (fun x => x.length = d) := by
    intro V hV
    simp only [List.mem_cons, List.not_mem_nil, or_false] at hV
    rcases hV with rfl | rfl
    · exact ⟨_, ⟨lazyMean_plain 0, lazyMean_correct⟩, tracks_lazy d⟩
    · exact ⟨_, ⟨immMean_plain 0, immMean_correct 0⟩, tracks_imm d⟩
  constructor
  · intro ps hne h V hV P hP
    obtain ⟨Q, ⟨q1, q2⟩, q3⟩ := vprov V hV
    obtain ⟨p1, p2⟩ := prov P hP
    rw [C53_covariance_variate 0 (List.length_replicate (n := d) (a := (0 : K))) q3 (fun _ => q1) p1 h]
    congr 1
    apply byCoord_congr
    intro i _
    rw [replicate_getD]
    exact C08_covariance P Q p2 q2 _ (by simpa using hne)
  · intro ps hne h V hV P hP
    obtain ⟨Q, ⟨q1, q2⟩, q3⟩ := vprov V hV
    obtain ⟨p1, p2⟩ := prov P hP
    rw [C53_covariance_sample (List.length_replicate (n := d) (a := (0 : K))) 0 q3 (fun _ => q1) p1 h]
    congr 1
    apply byCoord_congr
    intro i _
    rw [replicate_getD]
    exact C08_covariance Q P q2 p2 _ (by simpa using hne)

/-- **C08**, vector sample and vector covariate: the matrix of the covariances, a row for each component of the
covariate.  Partial: only for a sample and a covariate of the same dimension, see `C08_matrix_fails`. -/
theorem C08_matrix_partial {d : ℕ} {ps : List (List K × List K)} (hne : ps ≠ [])
    (h : ∀ p ∈ ps, p.1.length = d ∧ p.2.length = d) :
    covVVRun (lazyVMean (List.replicate d 0)) (lazyVMean (List.replicate d 0)) (List.replicate d 0)
        (List.replicate d 0) ps =
      .val ((List.range d).map fun i => (List.range d).map fun j =>
        .val (Spec.covariance (ps.map fun p => (p.1.getD j 0, p.2.getD i 0)))) := by
  rw [C53_covariance_matrix (tracks_lazy d) (fun _ => lazyMean_plain 0) (tracks_lazy d) (fun _ => lazyMean_plain 0) h]
  congr 1
  apply byCoord_congr
  intro i _
  apply byCoord_congr
  intro j _
  exact C08_covariance _ _ lazyMean_correct lazyMean_correct _ (by simpa using hne)

/-- **C08** fails for a vector sample and a vector covariate of different dimensions. -/
theorem C08_matrix_fails {d e : ℕ} (hde : d ≠ e) {p q : List K × List K} (hp : p.1.length = d ∧ p.2.length = e)
    (hq : q.1.length = d ∧ q.2.length = e) (ps : List (List K × List K)) :
    covVVRun (lazyVMean (List.replicate d 0)) (lazyVMean (List.replicate e 0)) (List.replicate d 0)
        (List.replicate e 0) (p :: q :: ps) = .ub :=
  C53_covariance_shape_fails hde List.length_replicate List.length_replicate (tracks_lazy d) (tracks_lazy e) hp hq ps

end closed

/-! ## Without an initial vector -/

/-- **C53** fails for a set constructed without `sample = `: the initial vector is `Sample()`, the empty one, and
the first sample of positive dimension violates the assertions of `+=` and of `min_assign`, `max_assign`. -/
theorem C53_default_fails (less : K → K → Bool) (lo hi : K) {x : List K} (hx : x ≠ []) (xs : List (List K)) :
    vsumRun [] (x :: xs) = .ub ∧ vminRun less hi [] (x :: xs) = .ub ∧ vmaxRun less lo [] (x :: xs) = .ub
    ∧ vmomentRun 1 [] (x :: xs) = .ub ∧ foldRes (lazyVMean []).push (lazyVMean []).init (x :: xs) = .ub := by
  have hl : ¬ 0 = x.length := fun hh => hx (List.length_eq_zero_iff.1 hh.symm)
  refine ⟨?_, ?_, ?_, ?_, ?_⟩
  · simp [vsumRun, foldRes, vplusAssign, vec, hl]
  · simp [vminRun, foldRes, vassign, vlimit, hl]
  · simp [vmaxRun, foldRes, vassign, vlimit, hl]
  · have e : vpow (vec x) 1 = .val (vec x) := by unfold vpow; simp
    simp only [vmomentRun, foldRes, VMomentSt.push, e, Res.val_bind, vplusAssign]
    simp [vec, hl]
  · simp [foldRes, lazyVMean, vplusAssign, vec, hl]

/-- **C53** fails for the immediate mean of a set constructed without `sample = `: for `std::vector` it stays the empty
vector, for `std::valarray` the first sample is added to an array of another size. -/
theorem C53_default_immediate_mean_fails (xs : List (List K)) :
    (Container.valarray = false →
      ∃ s, foldRes (immVMean []).push (immVMean []).init xs = .val s ∧ (immVMean []).read s = [])
    ∧ (Container.valarray = true → ∀ x : List K, x ≠ [] →
      foldRes (immVMean []).push (immVMean []).init (x :: xs) = .ub) := by
  constructor
  · intro hc
    have key : ∀ (xs : List (List K)) (n : ℕ), ∃ s, foldRes (immVMean []).push (⟨n, []⟩ : VCount K) xs = .val s ∧
        s.v = [] := by
      intro xs
      induction xs with
      | nil => intro n; exact ⟨_, rfl, rfl⟩
      | cons x xs ih =>
        intro n
        obtain ⟨s, h1, h2⟩ := ih (n + 1)
        refine ⟨s, ?_, h2⟩
        rw [← h1]
        simp [foldRes, immVMean, vmulS, vdivS, vzip, Container.Fits, hc]
    exact key xs 0
  · intro hc x hx
    have hl : ¬ 0 = x.length := fun hh => hx (List.length_eq_zero_iff.1 hh.symm)
    simp [foldRes, immVMean, vmulS, vdivS, vzip, Container.Fits, hc, vec, hl]

/-! ## Samples of another size -/

theorem foldRes_ub_of_mem {S α : Type} {f : S → α → Res S} {G : S → Prop} {ok : α → Prop} (x : α)
    (hstep : ∀ s a, G s → ok a → ∃ s', f s a = .val s' ∧ G s') (hbad : ∀ s a, G s → ¬ ok a → f s a = .ub)
    {s : S} (hs : G s) {xs : List α} (hx : x ∈ xs) (hnx : ¬ ok x) : foldRes f s xs = .ub := by
  induction xs generalizing s with
  | nil => simp at hx
  | cons a xs ih =>
    by_cases ha : ok a
    · obtain ⟨s', h1, h2⟩ := hstep s a hs ha
      rcases List.mem_cons.1 hx with rfl | hx
      · exact absurd ha hnx
      · simp only [foldRes, h1, Res.val_bind]
        exact ih h2 hx
    · simp only [foldRes, hbad s a hs ha]
      rfl

/-- **C53**, one size: a sample of another size than the initial one, anywhere in the stream and for either container,
is undefined behaviour for `sum`, `min`, `max` and the lazy mean (`BOOST_ASSERT` of `+=` and of `min_assign`,
`max_assign`). -/
theorem C53_size_ub (less : K → K → Bool) (lo hi : K) (x0 : List K) {x : List K} {xs : List (List K)} (hx : x ∈ xs)
    (hd : x.length ≠ x0.length) :
    vsumRun x0 xs = .ub ∧ vminRun less hi x0 xs = .ub ∧ vmaxRun less lo x0 xs = .ub
    ∧ foldRes (lazyVMean x0).push (lazyVMean x0).init xs = .ub := by
  refine ⟨?_, ?_, ?_, ?_⟩
  · exact foldRes_ub_of_mem (G := fun s => s.length = x0.length) (ok := fun a => a.length = x0.length) x
      (fun s a hs ha => by simp [vplusAssign, vec, hs, ha]) (fun s a hs ha => by
        simp [vplusAssign, vec, hs, Ne.symm ha]) (by simp [vec]) hx hd
  · exact foldRes_ub_of_mem (G := fun s => s.length = x0.length) (ok := fun a => a.length = x0.length) x
      (fun s a hs ha => by simp [vassign, hs, ha]) (fun s a hs ha => by
        simp [vassign, hs, Ne.symm ha]) (by unfold vlimit; split <;> simp [*]) hx hd
  · exact foldRes_ub_of_mem (G := fun s => s.length = x0.length) (ok := fun a => a.length = x0.length) x
      (fun s a hs ha => by simp [vassign, hs, ha]) (fun s a hs ha => by
        simp [vassign, hs, Ne.symm ha]) (by unfold vlimit; split <;> simp [*]) hx hd
  · exact foldRes_ub_of_mem (G := fun s : VCount K => s.v.length = x0.length)
      (ok := fun a : List K => a.length = x0.length) x
      (fun s a hs ha => by simp [lazyVMean, vplusAssign, vec, hs, ha]) (fun s a hs ha => by
        simp [lazyVMean, vplusAssign, vec, hs, Ne.symm ha]) (by simp [lazyVMean, vec]) hx hd

/-- **C53**, one size, immediate mean: for `std::valarray` a sample of another size is undefined behaviour, for
`std::vector` only a shorter one is. -/
theorem C53_size_immediate_ub (x0 : List K) {x : List K} {xs : List (List K)} (hx : x ∈ xs)
    (hd : x.length < x0.length ∨ Container.valarray = true ∧ x.length ≠ x0.length) :
    foldRes (immVMean x0).push (immVMean x0).init xs = .ub := by
  refine foldRes_ub_of_mem (G := fun s : VCount K => s.v.length = x0.length)
    (ok := fun a : List K => Container.Fits x0.length a.length) x
    (fun s a hs ha => ?_) (fun s a hs ha => ?_) (by simp [immVMean, vec, vdivS]) hx ?_
  · have hle : x0.length ≤ a.length := by
      unfold Container.Fits at ha; split at ha <;> omega
    refine ⟨_, by simp only [immVMean, vzip, vmulS, vec, List.length_map, hs, if_pos ha, Res.val_bind]; rfl, ?_⟩
    simp [vdivS, hs, hle]
  · simp only [immVMean, vzip, vmulS, vec, List.length_map, hs, if_neg ha]
    rfl
  · unfold Container.Fits
    split <;> rename_i hc
    · rcases hd with h | h <;> omega
    · rcases hd with h | h
      · omega
      · exact absurd h.1 hc

/-- **C53** fails for the immediate mean of `std::vector` samples longer than the initial one: the components beyond
its size are dropped without a trace. -/
theorem C53_size_immediate_fails (hc : Container.valarray = false) (x0 : List K) {xs : List (List K)}
    (h : ∀ x ∈ xs, x0.length ≤ x.length) :
    foldRes (immVMean x0).push (immVMean x0).init xs =
      foldRes (immVMean x0).push (immVMean x0).init (xs.map (List.take x0.length)) := by
  have key : ∀ (xs : List (List K)) (s : VCount K), s.v.length = x0.length → (∀ x ∈ xs, x0.length ≤ x.length) →
      foldRes (immVMean x0).push s xs = foldRes (immVMean x0).push s (xs.map (List.take x0.length)) := by
    intro xs
    induction xs with
    | nil => intro s _ _; rfl
    | cons x xs ih =>
      intro s hs hx
      have hl := hx x (by simp)
      have e : (immVMean x0).push s x = (immVMean x0).push s (x.take x0.length) := by
        simp only [immVMean, vzip, vmulS, vec, List.length_map, hs, Container.Fits, hc, List.length_take,
          min_eq_left hl, hl, le_refl, if_true, Bool.false_eq_true, if_false, Res.val_bind]
        congr 3
        apply List.ext_getElem
        · simp [hs, hl]
        · intro i h1 h2
          simp
      simp only [foldRes, List.map_cons]
      rw [← e]
      have : ∃ s', (immVMean x0).push s x = .val s' ∧ s'.v.length = x0.length := by
        refine ⟨_, by
          simp only [immVMean, vzip, vmulS, vec, List.length_map, hs, Container.Fits, hc, hl, if_true,
            Bool.false_eq_true, if_false, Res.val_bind]; rfl, ?_⟩
        simp [vdivS, hs, hl]
      obtain ⟨s', h1, h2⟩ := this
      rw [h1]
      exact ih s' h2 fun y hy => hx y (by simp [hy])
  exact key xs _ (by simp [immVMean, vec, vdivS]) h

end main

/-! ## Examples -/

section vector
attribute [local instance] Container.vector

example : vsumRun [0, 0, (0 : ℚ)] [[1, 2, 3], [4, 5, 6]] = .val [.val 5, .val 7, .val 9] := by decide +kernel

example : vvarianceRun (immVMean [0, (0 : ℚ)]) [0, 0] [[1, 2], [4, 5], [1, -4]] = .val [.val 2, .val 14] := by
  decide +kernel

example : vlazyVarianceRun (lazyVMean [0, (0 : ℚ)]) [0, 0] [[1, 2], [4, 5], [1, -4]] = .val [.val 2, .val 14] := by
  decide +kernel

example : covVVRun (lazyVMean [0, (0 : ℚ)]) (lazyVMean [0, 0]) [0, 0] [0, 0] [([1, 2], [3, 5]), ([2, 0], [3, 7])] =
    .val [[.val 0, .val 0], [.val (1 / 2), .val (-1)]] := by decide +kernel

example : covVVRun (lazyVMean [0, (0 : ℚ)]) (lazyVMean [0]) [0, 0] [0] [([1, 2], [3]), ([2, 0], [3])] = .ub := by
  decide +kernel

example : vweightedVarianceRun (immVWMean [0, (0 : ℚ)]) [0, 0] [([1, 2], 1), ([4, 6], 2)] =
    .val [.val 2, .val (32 / 9)] := by decide +kernel

example : vminRun (fun a b : ℤ => a < b) 1000 [0, 0] [[3, 1], [2, 5]] = .val [2, 1] := by decide +kernel

example : (foldRes (immVMean [0, (0 : ℚ)]).push (immVMean [0, 0]).init [[1, 2, 3], [3, 4, 5]] >>= fun s =>
    pure ((immVMean [0, 0]).read s)) = .val [.val 2, .val 3] := by decide +kernel

end vector

section valarray
attribute [local instance] Container.valArray

example : vvarianceRun (immVMean [0, (0 : ℚ)]) [0, 0] [[1, 2], [4, 5], [1, -4]] = .val [.val 2, .val 14] := by
  decide +kernel

example : (foldRes (immVMean [0, (0 : ℚ)]).push (immVMean [0, 0]).init [[1, 2], [3, 4, 5]] >>= fun s =>
    pure ((immVMean [0, 0]).read s)) = .ub := by decide +kernel

end valarray

end Acc
