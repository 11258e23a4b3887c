import Verif.Model.VecWCov
import Verif.Props.VecCov
import Verif.Props.Weighted

/-!
# C84: weighted covariances of vectors
-/

set_option linter.unusedSectionVars false

namespace Acc

section

variable {K : Type} [Field K] [DecidableEq K] [Container]

theorem wcovStep_plain (cnt : ℕ) (W : K) {mx my c : Res K} (hx : Plain mx) (hy : Plain my) (hc : Plain c) (x y w : K) :
    weightedCovarianceStep cnt W mx my c x y w = if cnt > 1 then
      lift2 (· + ·) ((c >>= fun v => pure (v * (W - w))) >>= fun v => fdiv v W)
        ((lift2 (· * ·) (lift2 (· - ·) my (.val y)) (lift2 (· - ·) mx (.val x)) >>= fun q => pure (q * w)) >>= fun q =>
          fdiv q (W - w)) else c := by
  unfold weightedCovarianceStep
  split_ifs
  · obtain ⟨mx, rfl⟩ | rfl := hx <;> obtain ⟨my, rfl⟩ | rfl := hy <;> obtain ⟨c, rfl⟩ | rfl := hc <;>
      simp only [lift2, Res.val_bind, Res.nonfinite_bind, Res.pure_eq]
  · rfl

theorem wcov_state (P Q : MeanProvider (K × K) K) (ps : List ((K × K) × K)) :
    (ps.foldl (WCovSt.push P Q) ⟨P.init, Q.init, 0, 0, .val 0⟩).mx = P.run (ps.map fun p => (p.1.1, p.2)) ∧
    (ps.foldl (WCovSt.push P Q) ⟨P.init, Q.init, 0, 0, .val 0⟩).my = Q.run (ps.map fun p => (p.1.2, p.2)) ∧
    (ps.foldl (WCovSt.push P Q) ⟨P.init, Q.init, 0, 0, .val 0⟩).cnt = ps.length ∧
    (ps.foldl (WCovSt.push P Q) ⟨P.init, Q.init, 0, 0, .val 0⟩).sumW = (ps.map Prod.snd).foldl sumStep 0 := by
  induction ps using List.reverseRecOn with
  | nil => exact ⟨rfl, rfl, rfl, rfl⟩
  | append_singleton ps p ih =>
    rw [List.foldl_append, List.map_append, List.map_append, List.map_singleton, List.map_singleton, run_snoc,
      run_snoc]
    simp only [List.foldl_cons, List.foldl_nil, WCovSt.push, ih.1, ih.2.1, ih.2.2.1, ih.2.2.2, List.length_append,
      List.map_append, List.foldl_append]
    simp

theorem wcov_snoc (P Q : MeanProvider (K × K) K) (ps : List ((K × K) × K)) (p : (K × K) × K) :
    weightedCovarianceRun P Q (ps ++ [p]) =
      weightedCovarianceStep (ps.length + 1) (sumStep ((ps.map Prod.snd).foldl sumStep 0) p.2)
        (P.read (P.run ((ps.map fun p => (p.1.1, p.2)) ++ [(p.1.1, p.2)])))
        (Q.read (Q.run ((ps.map fun p => (p.1.2, p.2)) ++ [(p.1.2, p.2)])))
        (weightedCovarianceRun P Q ps) p.1.1 p.1.2 p.2 := by
  have h := wcov_state P Q ps
  unfold weightedCovarianceRun
  rw [List.foldl_append, run_snoc, run_snoc]
  simp only [List.foldl_cons, List.foldl_nil, WCovSt.push, h.1, h.2.1, h.2.2.1, h.2.2.2]

theorem wcov_plain {P Q : MeanProvider (K × K) K} (hP : PlainMeans P) (hQ : PlainMeans Q) (ps : List ((K × K) × K)) :
    Plain (weightedCovarianceRun P Q ps) := by
  induction ps using List.reverseRecOn with
  | nil => exact plain_val _
  | append_singleton ps p ih =>
    rw [wcov_snoc, wcovStep_plain _ _ (hP _) (hQ _) ih]
    split_ifs
    · exact plain_lift2 (plain_bind (plain_bind ih fun _ => plain_val _) fun _ => plain_fdiv _ _)
        (plain_bind (plain_bind (plain_lift2 (plain_lift2 (hQ _) (plain_val _)) (plain_lift2 (hP _) (plain_val _)))
          fun _ => plain_val _) fun _ => plain_fdiv _ _)
    · exact ih

theorem vscale_byCoord (d : ℕ) (f : ℕ → Res K) (a b : K) :
    vscale (byCoord d f) a b = byCoord d fun i => (f i >>= fun v => pure (v * a)) >>= fun v => fdiv v b := by
  unfold vscale
  rw [vmulS_byCoord, vdivS_byCoord]

theorem sums_snoc {X : Type} (ps : List (X × K)) (p : X × K) :
    (List.map Prod.snd (ps ++ [p])).foldl sumStep 0 = sumStep ((ps.map Prod.snd).foldl sumStep 0) p.2 := by
  simp [List.foldl_append]

theorem zeros_byCoord (d : ℕ) : vmulS (vdivS (vec (List.replicate d (0 : K))) 1) 1 = byCoord d fun _ => .val (0 : K) := by
  rw [vec_eq (List.length_replicate (n := d) (a := (0 : K))), vdivS_byCoord, vmulS_byCoord]
  apply byCoord_congr
  intro i hi
  simp [coord, hi, fdiv]

/-- The means of the samples go on by one sample. -/
theorem wtracks_snoc {d : ℕ} {V : VMeanProvider (List K × K) K} {P : ℕ → MeanProvider (K × K) K}
    (hT : Tracks V P (fun i p => (p.1.getD i 0, p.2)) d fun p => p.1.length = d) {X : Type} (f : X → List K)
    {ps : List (X × K)} {p : X × K} (h : ∀ q ∈ ps ++ [p], (f q.1).length = d) {m : V.St}
    (hm : foldRes V.push V.init (ps.map fun q => (f q.1, q.2)) = .val m) :
    ∃ m', V.push m (f p.1, p.2) = .val m' ∧
      foldRes V.push V.init ((ps ++ [p]).map fun q => (f q.1, q.2)) = .val m' ∧
      V.read m' = byCoord d fun i => (P i).read ((P i).run ((ps ++ [p]).map fun q => (coord i (f q.1), q.2))) := by
  obtain ⟨m', h3, h4, h5⟩ := hT.snoc (xs := ps.map fun q => (f q.1, q.2)) (x := (f p.1, p.2)) (by
    intro y hy
    rcases List.mem_append.1 hy with hy | hy
    · obtain ⟨q, hq, rfl⟩ := List.mem_map.1 hy
      exact h q (by simp [hq])
    · rw [List.mem_singleton.1 hy]
      exact h p (by simp)) hm
  refine ⟨m', h3, by rw [List.map_append]; exact h4, ?_⟩
  rw [h5]
  apply byCoord_congr
  intro i _
  rw [List.map_append, List.map_map]
  rfl

/-- **C84**, vector samples and a scalar covariate, in terms of the scalar accumulator. -/
theorem C84_sample_components {d : ℕ} {V : VMeanProvider (List K × K) K} {P : ℕ → MeanProvider (K × K) K}
    {Q : MeanProvider (K × K) K}
    (hT : Tracks V P (fun i p => (p.1.getD i 0, p.2)) d fun p => p.1.length = d) (hP : ∀ i, PlainMeans (P i))
    (hQ : PlainMeans Q) {ps : List ((List K × K) × K)} (h : ∀ p ∈ ps, p.1.1.length = d) :
    wcovVSRun V Q (List.replicate d 0) 0 ps =
      .val ((List.range d).map fun i =>
        weightedCovarianceRun (P i) Q (ps.map fun p => ((p.1.1.getD i 0, p.1.2), p.2))) := by
  have key : ∃ m, foldRes V.push V.init (ps.map fun p => (p.1.1, p.2)) = .val m ∧
      foldRes (wcovVSPush V Q)
        ⟨V.init, Q.init, 0, 0, (vmulS (vdivS (vec (List.replicate d 0)) 1) 1).map fun a =>
          lift2 (· * ·) a (do let b ← fdiv 0 1; return b * 1)⟩ ps =
        .val ⟨m, Q.run (ps.map fun p => (p.1.2, p.2)), (ps.map Prod.snd).foldl sumStep 0, ps.length, byCoord d fun i =>
          weightedCovarianceRun (P i) Q (ps.map fun p => ((coord i p.1.1, p.1.2), p.2))⟩ := by
    induction ps using List.reverseRecOn with
    | nil =>
      refine ⟨_, rfl, ?_⟩
      rw [zeros_byCoord, map_byCoord]
      simp only [foldRes, fdiv, lift2]
      simp [weightedCovarianceRun, MeanProvider.run]
    | append_singleton ps p ih =>
      obtain ⟨m, h1, h2⟩ := ih fun y hy => h y (by simp [hy])
      obtain ⟨m', h3, h4, h5⟩ := wtracks_snoc hT (fun x : List K × K => x.1) h h1
      refine ⟨m', h4, ?_⟩
      rw [foldRes_append, h2]
      simp only [Res.val_bind, foldRes, wcovVSPush, h3]
      rw [sums_snoc, List.map_append (f := fun p : (List K × K) × K => (p.1.2, p.2)), List.map_singleton, run_snoc]
      split_ifs with hc
      · rw [h5, vec_eq (h p (by simp))]
        simp only [vzip_byCoord, vscale_byCoord, map_byCoord, Res.val_bind, Res.pure_eq,
          List.length_append, List.length_singleton]
        congr 2
        apply byCoord_congr
        intro i _
        rw [List.map_append, List.map_singleton, List.map_append, List.map_singleton, wcov_snoc,
          wcovStep_plain _ _ (hP i _) (hQ _) (wcov_plain (hP i) hQ _), List.length_map, List.map_map, List.map_map,
          List.map_map, if_pos hc, ← run_snoc]
        rfl
      · simp only [Res.pure_eq, Res.val_bind, List.length_append, List.length_singleton]
        congr 2
        apply byCoord_congr
        intro i _
        rw [List.map_append, List.map_singleton, wcov_snoc,
          wcovStep_plain _ _ (hP i _) (hQ _) (wcov_plain (hP i) hQ _), List.length_map, if_neg hc]
  obtain ⟨m, -, h2⟩ := key
  unfold wcovVSRun
  rw [h2]
  rfl

/-- **C84**, scalar samples and a vector covariate, in terms of the scalar accumulator. -/
theorem C84_variate_components {d : ℕ} {V : VMeanProvider (List K × K) K} {Q : ℕ → MeanProvider (K × K) K}
    {P : MeanProvider (K × K) K}
    (hT : Tracks V Q (fun i p => (p.1.getD i 0, p.2)) d fun p => p.1.length = d) (hQ : ∀ i, PlainMeans (Q i))
    (hP : PlainMeans P) {ps : List ((K × List K) × K)} (h : ∀ p ∈ ps, p.1.2.length = d) :
    wcovSVRun P V 0 (List.replicate d 0) ps =
      .val ((List.range d).map fun i =>
        weightedCovarianceRun P (Q i) (ps.map fun p => ((p.1.1, p.1.2.getD i 0), p.2))) := by
  have key : ∃ m, foldRes V.push V.init (ps.map fun p => (p.1.2, p.2)) = .val m ∧
      foldRes (wcovSVPush P V)
        ⟨P.init, V.init, 0, 0, (vmulS (vdivS (vec (List.replicate d 0)) 1) 1).map fun a =>
          lift2 (· * ·) (do let b ← fdiv 0 1; return b * 1) a⟩ ps =
        .val ⟨P.run (ps.map fun p => (p.1.1, p.2)), m, (ps.map Prod.snd).foldl sumStep 0, ps.length, byCoord d fun i =>
          weightedCovarianceRun P (Q i) (ps.map fun p => ((p.1.1, coord i p.1.2), p.2))⟩ := by
    induction ps using List.reverseRecOn with
    | nil =>
      refine ⟨_, rfl, ?_⟩
      rw [zeros_byCoord, map_byCoord]
      simp only [foldRes, fdiv, lift2]
      simp [weightedCovarianceRun, MeanProvider.run]
    | append_singleton ps p ih =>
      obtain ⟨m, h1, h2⟩ := ih fun y hy => h y (by simp [hy])
      obtain ⟨m', h3, h4, h5⟩ := wtracks_snoc hT (fun x : K × List K => x.2) h h1
      refine ⟨m', h4, ?_⟩
      rw [foldRes_append, h2]
      simp only [Res.val_bind, foldRes, wcovSVPush, h3]
      rw [sums_snoc, List.map_append (f := fun p : (K × List K) × K => (p.1.1, p.2)), List.map_singleton, run_snoc]
      split_ifs with hc
      · rw [h5, vec_eq (h p (by simp))]
        simp only [vzip_byCoord, vscale_byCoord, map_byCoord, Res.val_bind, Res.pure_eq,
          List.length_append, List.length_singleton]
        congr 2
        apply byCoord_congr
        intro i _
        rw [List.map_append, List.map_singleton, List.map_append, List.map_singleton, wcov_snoc,
          wcovStep_plain _ _ (hP _) (hQ i _) (wcov_plain hP (hQ i) _), List.length_map, List.map_map, List.map_map,
          List.map_map, if_pos hc, ← run_snoc]
        rfl
      · simp only [Res.pure_eq, Res.val_bind, List.length_append, List.length_singleton]
        congr 2
        apply byCoord_congr
        intro i _
        rw [List.map_append, List.map_singleton, wcov_snoc,
          wcovStep_plain _ _ (hP _) (hQ i _) (wcov_plain hP (hQ i) _), List.length_map, if_neg hc]
  obtain ⟨m, -, h2⟩ := key
  unfold wcovSVRun
  rw [h2]
  rfl

/-- **C84**, vector samples and a vector covariate of the same dimension, in terms of the scalar accumulator. -/
theorem C84_matrix_components {d : ℕ} {V W : VMeanProvider (List K × K) K} {P Q : ℕ → MeanProvider (K × K) K}
    (hV : Tracks V P (fun i p => (p.1.getD i 0, p.2)) d fun p => p.1.length = d) (hP : ∀ i, PlainMeans (P i))
    (hW : Tracks W Q (fun i p => (p.1.getD i 0, p.2)) d fun p => p.1.length = d) (hQ : ∀ i, PlainMeans (Q i))
    {ps : List ((List K × List K) × K)} (h : ∀ p ∈ ps, p.1.1.length = d ∧ p.1.2.length = d) :
    wcovVVRun V W (List.replicate d 0) (List.replicate d 0) ps =
      .val ((List.range d).map fun i => (List.range d).map fun j =>
        weightedCovarianceRun (P j) (Q i) (ps.map fun p => ((p.1.1.getD j 0, p.1.2.getD i 0), p.2))) := by
  have key : ∃ m n, foldRes V.push V.init (ps.map fun p => (p.1.1, p.2)) = .val m ∧
      foldRes W.push W.init (ps.map fun p => (p.1.2, p.2)) = .val n ∧
      foldRes (wcovVVPush V W)
        ⟨V.init, W.init, 0, 0, outer (vmulS (vdivS (vec (List.replicate d 0)) 1) 1)
          (vmulS (vdivS (vec (List.replicate d 0)) 1) 1)⟩ ps =
        .val ⟨m, n, (ps.map Prod.snd).foldl sumStep 0, ps.length, byCoord d fun i => byCoord d fun j =>
          weightedCovarianceRun (P j) (Q i) (ps.map fun p => ((coord j p.1.1, coord i p.1.2), p.2))⟩ := by
    induction ps using List.reverseRecOn with
    | nil =>
      refine ⟨_, _, rfl, rfl, ?_⟩
      rw [zeros_byCoord]
      simp only [foldRes, outer, map_byCoord, lift2]
      simp [weightedCovarianceRun]
    | append_singleton ps p ih =>
      obtain ⟨m, n, h1, k1, h2⟩ := ih fun y hy => h y (by simp [hy])
      obtain ⟨m', h3, h4, h5⟩ := wtracks_snoc hV (fun x : List K × List K => x.1) (fun q hq => (h q hq).1) h1
      obtain ⟨n', k3, k4, k5⟩ := wtracks_snoc hW (fun x : List K × List K => x.2) (fun q hq => (h q hq).2) k1
      refine ⟨m', n', h4, k4, ?_⟩
      rw [foldRes_append, h2]
      simp only [Res.val_bind, foldRes, wcovVVPush, h3, k3]
      rw [sums_snoc]
      split_ifs with hc
      · rw [h5, k5, vec_eq (h p (by simp)).1, vec_eq (h p (by simp)).2]
        simp only [vzip_byCoord, vscale_byCoord, map_byCoord, Res.val_bind, Res.pure_eq,
          List.length_append, List.length_singleton, outer, mplus, byCoord_length, if_true, zipWith_byCoord]
        congr 2
        apply byCoord_congr
        intro i _
        apply byCoord_congr
        intro j _
        rw [List.map_append, List.map_singleton, List.map_append, List.map_singleton, List.map_append,
          List.map_singleton, wcov_snoc, wcovStep_plain _ _ (hP j _) (hQ i _) (wcov_plain (hP j) (hQ i) _),
          List.length_map, List.map_map, List.map_map, List.map_map, if_pos hc]
        rfl
      · simp only [Res.pure_eq, Res.val_bind, List.length_append, List.length_singleton]
        congr 2
        apply byCoord_congr
        intro i _
        apply byCoord_congr
        intro j _
        rw [List.map_append, List.map_singleton, wcov_snoc,
          wcovStep_plain _ _ (hP j _) (hQ i _) (wcov_plain (hP j) (hQ i) _), List.length_map, if_neg hc]
  obtain ⟨m, n, -, -, h2⟩ := key
  unfold wcovVVRun
  rw [h2]
  rfl

/-! ## Closed forms -/

theorem wtracks_lazy (d : ℕ) : Tracks (lazyVWMean (List.replicate d (0 : K))) (fun _ => lazyWMean 0)
    (fun i p => (p.1.getD i 0, p.2)) d (fun p => p.1.length = d) := by
  have h := (C53_weighted_mean (List.length_replicate (n := d) (a := (0 : K)))).1
  have e : ∀ i, (List.replicate d (0 : K)).getD i 0 = 0 := fun i => by
    rw [List.getD_eq_getElem?_getD, List.getElem?_replicate]
    split_ifs <;> rfl
  simpa only [e] using h

theorem wtracks_imm (d : ℕ) : Tracks (immVWMean (List.replicate d (0 : K))) (fun _ => immWMean 0)
    (fun i p => (p.1.getD i 0, p.2)) d (fun p => p.1.length = d) := by
  have h := (C53_weighted_mean (List.length_replicate (n := d) (a := (0 : K)))).2
  have e : ∀ i, (List.replicate d (0 : K)).getD i 0 = 0 := fun i => by
    rw [List.getD_eq_getElem?_getD, List.getElem?_replicate]
    split_ifs <;> rfl
  simpa only [e] using h

/-- The providers of a weighted mean in a set. -/
theorem wprov : ∀ P ∈ [lazyWMean (0 : K), immWMean 0], PlainMeans P ∧ P.WCorrect := by
  intro P hP
  simp only [List.mem_cons, List.not_mem_nil, or_false] at hP
  rcases hP with rfl | rfl
  · exact ⟨lazyWMean_plain 0, lazyWMean_correct⟩
  · exact ⟨immWMean_plain 0, immWMean_correct 0⟩

theorem wvprov {d : ℕ} : ∀ V ∈ [lazyVWMean (List.replicate d (0 : K)), immVWMean (List.replicate d (0 : K))],
    ∃ P, (PlainMeans P ∧ P.WCorrect) ∧
      Tracks V (fun _ => P) (fun i p => (p.1.getD i 0, p.2)) d (fun p => p.1.length = d) := by
  intro V hV
  simp only [List.mem_cons, List.not_mem_nil, or_false] at hV
  rcases hV with rfl | rfl
  · exact ⟨_, ⟨lazyWMean_plain 0, lazyWMean_correct⟩, wtracks_lazy d⟩
  · exact ⟨_, ⟨immWMean_plain 0, immWMean_correct 0⟩, wtracks_imm d⟩

theorem prefixes_map {X Y : Type} (f : X → Y) {ps : List (X × K)} (h : Spec.NonzeroPrefixes Prod.snd ps) :
    Spec.NonzeroPrefixes Prod.snd (ps.map fun p => (f p.1, p.2)) := by
  intro n h0 hn
  have := h n h0 (by simpa using hn)
  rw [← List.map_take, List.map_map]
  exact this

variable [CharZero K]

/-- **C84**, one vector: the vector of the weighted covariances, for the lazy and the immediate means. -/
theorem C84_vector {d : ℕ} :
    (∀ ps : List ((K × List K) × K), ps ≠ [] → Spec.NonzeroPrefixes Prod.snd ps → (∀ p ∈ ps, p.1.2.length = d) →
      ∀ V ∈ [lazyVWMean (List.replicate d (0 : K)), immVWMean (List.replicate d (0 : K))],
      ∀ P ∈ [lazyWMean (0 : K), immWMean 0],
      wcovSVRun P V 0 (List.replicate d 0) ps =
        .val ((List.range d).map fun i => .val (Spec.wcovariance (ps.map fun p => ((p.1.1, p.1.2.getD i 0), p.2)))))
    ∧ ∀ ps : List ((List K × K) × K), ps ≠ [] → Spec.NonzeroPrefixes Prod.snd ps → (∀ p ∈ ps, p.1.1.length = d) →
      ∀ V ∈ [lazyVWMean (List.replicate d (0 : K)), immVWMean (List.replicate d (0 : K))],
      ∀ P ∈ [lazyWMean (0 : K), immWMean 0],
      wcovVSRun V P (List.replicate d 0) 0 ps =
        .val ((List.range d).map fun i => .val (Spec.wcovariance (ps.map fun p => ((p.1.1.getD i 0, p.1.2), p.2)))) := by
  constructor
  · intro ps hne hW h V hV P hP
    obtain ⟨Q, ⟨q1, q2⟩, q3⟩ := wvprov V hV
    obtain ⟨p1, p2⟩ := wprov P hP
    rw [C84_variate_components q3 (fun _ => q1) p1 h]
    congr 1
    apply byCoord_congr
    intro i _
    exact C34_covariance P Q p2 q2 _ (by simpa using hne) (prefixes_map (fun x : K × List K => (x.1, x.2.getD i 0)) hW)
  · intro ps hne hW h V hV P hP
    obtain ⟨Q, ⟨q1, q2⟩, q3⟩ := wvprov V hV
    obtain ⟨p1, p2⟩ := wprov P hP
    rw [C84_sample_components q3 (fun _ => q1) p1 h]
    congr 1
    apply byCoord_congr
    intro i _
    exact C34_covariance Q P q2 p2 _ (by simpa using hne) (prefixes_map (fun x : List K × K => (x.1.getD i 0, x.2)) hW)

/-- **C84**, two vectors of the same dimension: the matrix of the weighted covariances, a row for each component of the
covariate. -/
theorem C84_matrix {d : ℕ} {ps : List ((List K × List K) × K)} (hne : ps ≠ []) (hps : Spec.NonzeroPrefixes Prod.snd ps)
    (h : ∀ p ∈ ps, p.1.1.length = d ∧ p.1.2.length = d)
    {V W : VMeanProvider (List K × K) K}
    (hV : V ∈ [lazyVWMean (List.replicate d (0 : K)), immVWMean (List.replicate d (0 : K))])
    (hW : W ∈ [lazyVWMean (List.replicate d (0 : K)), immVWMean (List.replicate d (0 : K))]) :
    wcovVVRun V W (List.replicate d 0) (List.replicate d 0) ps =
      .val ((List.range d).map fun i => (List.range d).map fun j =>
        .val (Spec.wcovariance (ps.map fun p => ((p.1.1.getD j 0, p.1.2.getD i 0), p.2)))) := by
  obtain ⟨P, ⟨p1, p2⟩, p3⟩ := wvprov V hV
  obtain ⟨Q, ⟨q1, q2⟩, q3⟩ := wvprov W hW
  rw [C84_matrix_components p3 (fun _ => p1) q3 (fun _ => q1) h]
  congr 1
  apply byCoord_congr
  intro i _
  apply byCoord_congr
  intro j _
  exact C34_covariance _ _ p2 q2 _ (by simpa using hne)
    (prefixes_map (fun x : List K × List K => (x.1.getD j 0, x.2.getD i 0)) hps)

omit [CharZero K] in
/-- **C84**, two vectors of different dimensions: undefined from the second sample on, whatever the initial vectors of
these dimensions and the weights. -/
theorem C84_shape {d e : ℕ} (hde : d ≠ e) {x0 y0 : List K} (hx0 : x0.length = d) (hy0 : y0.length = e)
    {V W : VMeanProvider (List K × K) K}
    (hV : V ∈ [lazyVWMean (List.replicate d (0 : K)), immVWMean (List.replicate d (0 : K))])
    (hW : W ∈ [lazyVWMean (List.replicate e (0 : K)), immVWMean (List.replicate e (0 : K))])
    {p q : (List K × List K) × K} (hp : p.1.1.length = d ∧ p.1.2.length = e) (hq : q.1.1.length = d ∧ q.1.2.length = e)
    (ps : List ((List K × List K) × K)) : wcovVVRun V W x0 y0 (p :: q :: ps) = .ub := by
  obtain ⟨P, -, hV⟩ := wvprov V hV
  obtain ⟨Q, -, hW⟩ := wvprov W hW
  obtain ⟨m, h1, -⟩ := hV [(p.1.1, p.2)] (by simpa using hp.1)
  obtain ⟨n, k1, -⟩ := hW [(p.1.2, p.2)] (by simpa using hp.2)
  obtain ⟨m', h3, h4, h5⟩ := hV.snoc (xs := [(p.1.1, p.2)]) (x := (q.1.1, q.2)) (by simp [hp.1, hq.1]) h1
  obtain ⟨n', k3, k4, k5⟩ := hW.snoc (xs := [(p.1.2, p.2)]) (x := (q.1.2, q.2)) (by simp [hp.2, hq.2]) k1
  have a1 : V.push V.init (p.1.1, p.2) = .val m := by
    simp only [foldRes] at h1
    cases hz : V.push V.init (p.1.1, p.2) with
    | val a => rw [hz] at h1; exact h1
    | _ => rw [hz] at h1; cases h1
  have a2 : W.push W.init (p.1.2, p.2) = .val n := by
    simp only [foldRes] at k1
    cases hz : W.push W.init (p.1.2, p.2) with
    | val a => rw [hz] at k1; exact k1
    | _ => rw [hz] at k1; cases k1
  unfold wcovVVRun
  simp only [foldRes, wcovVVPush, a1, a2, Res.val_bind]
  rw [if_neg (by omega)]
  simp only [Res.pure_eq, Res.val_bind, h3, k3]
  rw [if_pos (by omega), h5, k5, vec_eq hq.1, vec_eq hq.2, vec_eq hx0, vec_eq hy0]
  simp only [vzip_byCoord, vdivS_byCoord, vmulS_byCoord, vscale_byCoord, outer, map_byCoord, Res.val_bind, mplus]
  rw [if_neg]
  · rfl
  · intro hl
    have := congrArg List.length hl
    simp only [byCoord_length] at this
    exact hde this

end

/-! ## Instances -/

section
local instance : Container := Container.vector

/-- The matrix of `/repo/test/weighted_covariance.cpp:71-76`, `85-88`: the covariances of the components, transposed. -/
example : wcovVVRun (lazyVWMean (List.replicate 2 (0 : ℚ))) (lazyVWMean (List.replicate 2 0)) (List.replicate 2 0)
      (List.replicate 2 0)
      [(([1, 2], [3, 4]), 11 / 10), (([3, 4], [2, 5]), 22 / 10), (([1, 2], [2, 5]), 33 / 10), (([4, 2], [3, 4]), 44 / 10)] =
    .val [[.val (2 / 5), .val (-1 / 5)], [.val (-2 / 5), .val (1 / 5)]] := by
  rw [C84_matrix (d := 2) (by simp) _ (by simp) (by simp) (by simp)]
  · norm_num [Spec.wcovariance, Spec.wmean, Spec.wtotal, List.range, List.range.loop]
  · intro n h0 hn
    simp at hn
    interval_cases n <;> norm_num

example : wcovVVRun (lazyVWMean (List.replicate 2 (0 : ℚ))) (immVWMean (List.replicate 1 0)) [0, 0] [0]
    [(([1, 2], [3]), 1), (([3, 4], [2]), 2)] = .ub :=
  C84_shape (d := 2) (e := 1) (by decide) rfl rfl (by simp) (by simp) (by simp) (by simp) []

end

end Acc
