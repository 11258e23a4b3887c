import Verif.Proofs.Pot

/-!
# Properties of the peaks-over-threshold fits (C30, share of C28, C55, C56)

`pw` is the power function of the floating point type; nothing is assumed about it.
-/

set_option linter.unusedSectionVars false

namespace Acc

variable {K : Type} [Field K] [LinearOrder K] [IsStrictOrderedRing K]

/-- After pushing `xs` into a fresh set, extractions return `r` and a second one changes nothing. -/
def Fits {X S R : Type} (M : RMachine X Unit S R) (xs : List X) (r : R) : Prop :=
  ∃ s t, M.exec M.init (onlyPushes xs) = .val s ∧ M.query s () = .val (t, r) ∧ M.query t () = .val (t, r)

theorem Fits.answer {X S R : Type} {M : RMachine X Unit S R} {xs : List X} {r : R} (h : Fits M xs r) (q : ℕ) :
    M.answer (onlyPushes xs ++ List.replicate q (.query ())) () = .val r := by
  obtain ⟨s, t, e, e1, e2⟩ := h
  exact RMachine.answer_after_queries M xs q e e1 e2

/-- State after pushing `xs` into a fresh set (helper). -/
theorem pot_state (pw : K → K → Res K) (side : Side) (thr : K) (xs : List K) :
    ∃ s, (potSet pw side thr).exec (potSet pw side thr).init (onlyPushes xs) = .val s ∧
      s.cnt = xs.length ∧ s.nu = (potHits side thr xs).length ∧ s.mu = .val (potHits side thr xs).sum ∧
      s.sigma2 = .val ((potHits side thr xs).map fun x => x * x).sum ∧ s.thr = potSign side * thr ∧
      s.dirty = true := by
  refine ⟨_, pot_exec_pushes pw side thr xs (potSet pw side thr).init rfl, ?_⟩
  simp [potSet, potInit]

/-- The fit (see `C30_fit_partial`). -/
theorem pot_fits (pw : K → K → Res K) (side : Side) (thr : K) (xs : List K) {u f m v xi a b : K}
    (hu : u = Spec.mirrored side thr)
    (hf : f = ((Spec.exceedances side thr xs).length : K) / (xs.length : K))
    (hne : Spec.exceedances side thr xs ≠ [])
    (hm : m = Spec.mean (Spec.exceedances side thr xs))
    (hv : v = Spec.variance (Spec.exceedances side thr xs)) (hv0 : v ≠ 0)
    (hxi : xi = Spec.momentXi u m v) (hxi0 : xi ≠ 0)
    (ha : pw f xi = .val a) (hb : pw f (-xi) = .val b) :
    Fits (potSet pw side thr) xs (.val (u - Spec.momentBeta u m v * a * (b - 1) / xi), .val (Spec.momentBeta u m v * a),
          .val xi) := by
  obtain ⟨s, e, hc, hnu, hmu, hs2, ht, hd⟩ := pot_state pw side thr xs
  have hmap := potHits_map side thr xs
  have hE : potHits side thr xs ≠ [] := by
    intro h0; rw [h0] at hmap; exact hne hmap.symm
  have hlen : (potHits side thr xs).length = (Spec.exceedances side thr xs).length := by
    rw [← hmap, List.length_map]
  obtain ⟨h1, h2⟩ := mirrored_mean_var side hE
  rw [hmap, ← hm] at h1
  rw [hmap, ← hv, h1] at h2
  have hn0 : ((potHits side thr xs).length : K) ≠ 0 := length_cast_ne hE
  have hle : (potHits side thr xs).length ≤ xs.length := List.length_filter_le _ _
  have hx0 : (xs.length : K) ≠ 0 := by
    have := List.length_pos_of_ne_nil hE
    exact_mod_cast (by omega : xs.length ≠ 0)
  have hfrac : (1 : K) - ((xs.length - (potHits side thr xs).length : ℕ) : K) / (xs.length : K) = f := by
    rw [hf, ← hlen, Nat.cast_sub hle]
    field_simp
    ring
  have hquery : (potQuery pw side s).2
      = (.val (u - Spec.momentBeta u m v * a * (b - 1) / xi), .val (Spec.momentBeta u m v * a), .val xi) := by
    subst hxi
    have hres := potParams_val (pw := pw) (u := u) (m := m) (v := v)
      (t := ((xs.length - (potHits side thr xs).length : ℕ) : K) / (xs.length : K)) (a := a) (b := b) hv0
      hxi0 (by rw [hfrac]; exact ha) (by rw [hfrac]; exact hb)
    rw [← hres]
    unfold potQuery
    rw [if_pos hd]
    simp only [hc, hnu, hmu, hs2, ht, Res.val_bind, fdiv_ne hn0, fdiv_ne hx0, Res.pure_eq, h1, h2,
      (show potSign side * thr = u by rw [potSign_mul, hu])]
  refine ⟨s, (potQuery pw side s).1, e, ?_, ?_⟩
  · rw [← hquery]; rfl
  · rw [← hquery, ← pot_requery]; rfl

/-- **C30, partial** Samples `xs` are pushed, then the fit is extracted any number of times without further
pushes.  Let `ys` be the (mirrored) samples strictly beyond the threshold, `u` the (mirrored) threshold and
`f` the fraction of samples beyond it: the fit is the method-of-moments fit of mean and variance of `ys`.
Missing: interleaving of pushes and extractions, see `C30_not_transparent` and `C30_poisoned`. -/
theorem C30_fit_partial (pw : K → K → Res K) (side : Side) (thr : K) (xs : List K) (q : ℕ) {u f m v xi a b : K}
    (hu : u = Spec.mirrored side thr)
    (hf : f = ((Spec.exceedances side thr xs).length : K) / (xs.length : K))
    (hne : Spec.exceedances side thr xs ≠ [])
    (hm : m = Spec.mean (Spec.exceedances side thr xs))
    (hv : v = Spec.variance (Spec.exceedances side thr xs)) (hv0 : v ≠ 0)
    (hxi : xi = Spec.momentXi u m v) (hxi0 : xi ≠ 0)
    (ha : pw f xi = .val a) (hb : pw f (-xi) = .val b) :
    (potSet pw side thr).answer (onlyPushes xs ++ List.replicate q (.query ())) ()
      = .val (.val (u - Spec.momentBeta u m v * a * (b - 1) / xi), .val (Spec.momentBeta u m v * a),
          .val xi) :=
  (pot_fits pw side thr xs hu hf hne hm hv hv0 hxi hxi0 ha hb).answer q

/-- **C30/C28 fails** Extracting before the first sample beyond the threshold ruins the accumulator: from
then on every extraction returns NaN, whatever is pushed. -/
theorem C30_poisoned (pw : K → K → Res K) (side : Side) (thr : K) (xs : List K) (h : List (Op K Unit))
    (hne : Spec.exceedances side thr xs = []) :
    (potSet pw side thr).answer (onlyPushes xs ++ .query () :: h) ()
      = .val (.nonfinite, .nonfinite, .nonfinite) := by
  obtain ⟨s, e, hc, hnu, hmu, hs2, ht, hd⟩ := pot_state pw side thr xs
  have hE : potHits side thr xs = [] := by
    have hmap := potHits_map side thr xs
    rw [hne] at hmap
    simpa using hmap
  have hq : (potQuery pw side s).1.mu = .nonfinite ∧
      (potQuery pw side s).1.fit = (.nonfinite, .nonfinite, .nonfinite) := by
    unfold potQuery
    rw [if_pos hd]
    simp [hmu, hnu, hE, potParams_nonfinite]
  have hquery : ∀ t : PotSt K, t.mu = .nonfinite →
      (t.dirty = false → t.fit = (.nonfinite, .nonfinite, .nonfinite)) →
      (potQuery pw side t).2 = (.nonfinite, .nonfinite, .nonfinite) ∧
      (potQuery pw side t).1.mu = .nonfinite ∧
      (potQuery pw side t).1.fit = (.nonfinite, .nonfinite, .nonfinite) := by
    intro t h1 h2
    unfold potQuery
    by_cases hd : t.dirty = true
    · rw [if_pos hd]
      simp [h1, potParams_nonfinite]
    · rw [if_neg hd]
      exact ⟨h2 (by simpa using hd), h1, h2 (by simpa using hd)⟩
  obtain ⟨t, et, I1, I2⟩ := RMachine.exec_inv (potSet pw side thr)
    (fun t _ => t.mu = .nonfinite ∧ (t.dirty = false → t.fit = (.nonfinite, .nonfinite, .nonfinite)))
    (fun t _ x I => by
      refine ⟨_, rfl, ?_⟩
      unfold potPush
      split
      · simp [I.1]
      · exact ⟨I.1, fun h => by simp at h⟩)
    (fun t _ _ I => by
      refine ⟨_, _, rfl, ?_⟩
      obtain ⟨-, b, c⟩ := hquery t I.1 I.2
      exact ⟨b, fun _ => c⟩)
    (potQuery pw side s).1 [] ⟨hq.1, fun _ => hq.2⟩ h
  unfold RMachine.answer
  rw [RMachine.exec_append, e, Res.val_bind]
  simp only [RMachine.exec, RMachine.exec1]
  have hqs : (potSet pw side thr).query s () = .val (potQuery pw side s) := rfl
  rw [hqs, Res.val_bind, Res.pure_eq, Res.val_bind, et, Res.val_bind]
  have hqt : (potSet pw side thr).query t () = .val (potQuery pw side t) := rfl
  rw [hqt, Res.val_bind, Res.pure_eq, (hquery t I1 I2).1]

/-- **C30 fails with interleaved extractions** Threshold 0, samples 1, 2, 6: extracting once after the first
two changes the shape estimate, for every power function. -/
theorem C30_not_transparent (pw : ℚ → ℚ → Res ℚ) :
    (fun r : PotFit ℚ => r.2.2) <$> (potSet pw .right 0).answer
        (onlyPushes [1, 2, (6 : ℚ)]) () = .val (.val (-13 / 28)) ∧
    (fun r : PotFit ℚ => r.2.2) <$> (potSet pw .right 0).answer
        [.push 1, .push 2, .query (), .push (6 : ℚ)] () = .val (.val (-1 / 28)) := by
  constructor <;>
    norm_num [RMachine.answer, RMachine.exec, RMachine.exec1, onlyPushes, potSet, potInit, potPush,
      potQuery, potParams, potSign, fdiv]

/-- State after pushing weighted samples into a fresh set (helper). -/
theorem wpot_state (pw : K → K → Res K) (side : Side) (thr : K) (ps : List (K × K)) :
    ∃ s, (wpotSet pw side thr).exec (wpotSet pw side thr).init (onlyPushes ps) = .val s ∧
      s.total = Spec.wtotal ps ∧ s.wsum = Spec.wtotal (wpotHits side thr ps) ∧
      s.mu = .val ((wpotHits side thr ps).map fun p => p.2 * p.1).sum ∧
      s.sigma2 = .val ((wpotHits side thr ps).map fun p => p.2 * p.1 * p.1).sum ∧
      s.thr = potSign side * thr ∧ s.dirty = true := by
  refine ⟨_, wpot_exec_pushes pw side thr ps (wpotSet pw side thr).init rfl, ?_⟩
  simp [wpotSet, wpotInit, Spec.wtotal]

/-- The fit (see `C30_weighted_fit_partial`). -/
theorem wpot_fits (pw : K → K → Res K) (side : Side) (thr : K) (ps : List (K × K))
    {u f m v xi a b : K} (hu : u = Spec.mirrored side thr)
    (hf : f = Spec.wtotal (Spec.wexceedances side thr ps) / Spec.wtotal ps)
    (hW : Spec.wtotal ps ≠ 0) (hne : Spec.wtotal (Spec.wexceedances side thr ps) ≠ 0)
    (hm : m = Spec.wmean (Spec.wexceedances side thr ps))
    (hv : v = Spec.wvariance (Spec.wexceedances side thr ps)) (hv0 : v ≠ 0)
    (hxi : xi = Spec.momentXi u m v) (hxi0 : xi ≠ 0)
    (ha : pw f xi = .val a) (hb : pw f (-xi) = .val b) :
    Fits (wpotSet pw side thr) ps (.val (u - Spec.momentBeta u m v * a * (b - 1) / xi), .val (Spec.momentBeta u m v * a),
          .val xi) := by
  obtain ⟨s, e, hc, hws, hmu, hs2, ht, hd⟩ := wpot_state pw side thr ps
  have hmap := wpotHits_map side thr ps
  have htot : Spec.wtotal (wpotHits side thr ps) = Spec.wtotal (Spec.wexceedances side thr ps) := by
    rw [← hmap]; simp [Spec.wtotal, Function.comp_def]
  have hn0 : Spec.wtotal (wpotHits side thr ps) ≠ 0 := by rw [htot]; exact hne
  obtain ⟨h1, h2⟩ := wmirrored_mean_var side hn0
  rw [hmap, ← hm] at h1
  rw [hmap, ← hv, h1] at h2
  have hfrac : (1 : K) - (Spec.wtotal ps - Spec.wtotal (wpotHits side thr ps)) / Spec.wtotal ps = f := by
    rw [hf, ← htot]
    field_simp
    ring
  have hquery : (wpotQuery pw side s).2
      = (.val (u - Spec.momentBeta u m v * a * (b - 1) / xi), .val (Spec.momentBeta u m v * a), .val xi) := by
    subst hxi
    have hres := potParams_val (pw := pw) (u := u) (m := m) (v := v)
      (t := (Spec.wtotal ps - Spec.wtotal (wpotHits side thr ps)) / Spec.wtotal ps) (a := a) (b := b) hv0
      hxi0 (by rw [hfrac]; exact ha) (by rw [hfrac]; exact hb)
    rw [← hres]
    unfold wpotQuery
    rw [if_pos hd]
    simp only [hc, hws, hmu, hs2, ht, Res.val_bind, fdiv_ne hn0, fdiv_ne hW, Res.pure_eq, h1, h2,
      (show potSign side * thr = u by rw [potSign_mul, hu])]
  refine ⟨s, (wpotQuery pw side s).1, e, ?_, ?_⟩
  · rw [← hquery]; rfl
  · rw [← hquery, ← wpot_requery]; rfl

/-- **C30, partial** The weighted fit: weighted mean and variance of the exceedances, and the fraction of the
total weight beyond the threshold.  Missing as in `C30_fit_partial`. -/
theorem C30_weighted_fit_partial (pw : K → K → Res K) (side : Side) (thr : K) (ps : List (K × K)) (q : ℕ)
    {u f m v xi a b : K} (hu : u = Spec.mirrored side thr)
    (hf : f = Spec.wtotal (Spec.wexceedances side thr ps) / Spec.wtotal ps)
    (hW : Spec.wtotal ps ≠ 0) (hne : Spec.wtotal (Spec.wexceedances side thr ps) ≠ 0)
    (hm : m = Spec.wmean (Spec.wexceedances side thr ps))
    (hv : v = Spec.wvariance (Spec.wexceedances side thr ps)) (hv0 : v ≠ 0)
    (hxi : xi = Spec.momentXi u m v) (hxi0 : xi ≠ 0)
    (ha : pw f xi = .val a) (hb : pw f (-xi) = .val b) :
    (wpotSet pw side thr).answer (onlyPushes ps ++ List.replicate q (.query ())) ()
      = .val (.val (u - Spec.momentBeta u m v * a * (b - 1) / xi), .val (Spec.momentBeta u m v * a),
          .val xi) :=
  (wpot_fits pw side thr ps hu hf hW hne hm hv hv0 hxi hxi0 ha hb).answer q

/-- **C30 fails with interleaved extractions**, weighted version. -/
theorem C30_weighted_not_transparent (pw : ℚ → ℚ → Res ℚ) :
    (fun r : PotFit ℚ => r.2.2) <$> (wpotSet pw .right 0).answer
        (onlyPushes [(1, 1), (2, 1), (6, (1 : ℚ))]) () = .val (.val (-13 / 28)) ∧
    (fun r : PotFit ℚ => r.2.2) <$> (wpotSet pw .right 0).answer
        [.push (1, 1), .push (2, 1), .query (), .push (6, (1 : ℚ))] () = .val (.val (-1 / 28)) := by
  constructor <;>
    norm_num [RMachine.answer, RMachine.exec, RMachine.exec1, onlyPushes, wpotSet, wpotInit, wpotPush,
      wpotQuery, potParams, potSign, fdiv]

/-! ## Threshold given as a probability -/

section prob
variable {V : Type} [FloorRing K]

theorem potProb_state (pw : K → K → Res K) (H : HeapImpl ℕ) (side : Side) (hasNaN : Bool) {k : ℕ}
    (hk : 1 ≤ k) (v0 : V) (tp : K) (ps : List (K × V)) :
    ∃ s, (potProbSet pw H side hasNaN k v0 tp).exec (potProbSet pw H side hasNaN k v0 tp).init
        (onlyPushes ps) = .val s ∧
      s.cnt = ps.length ∧ tailResult H side s.tail = .val (Spec.extremes side k (ps.map Prod.fst)) ∧
      s.mu = .val 0 ∧ s.sigma2 = .val 0 ∧ s.tp = tp ∧ s.dirty = true ∧
      s.fit = (.val 0, .val 0, .val 0) := by
  obtain ⟨t, out, hr, ht, -, h3, -⟩ := extract_both H side hk (0 : K) v0 (onlyPushes ps)
  rw [pushes_onlyPushes] at h3
  refine ⟨_, potProb_exec_pushes pw H side hasNaN k v0 tp ps (potProbSet pw H side hasNaN k v0 tp).init
    (t := t) hr, ?_⟩
  simp [potProbSet, potProbInit, ht, h3]

/-- The fit (see `C30_prob_fit_partial`). -/
theorem potProb_fits (pw : K → K → Res K) (H : HeapImpl ℕ) (side : Side) (hasNaN : Bool) {k : ℕ}
    (hk : 1 ≤ k) (v0 : V) (tp : K) (ps : List (K × V)) {n : ℕ}
    (hn : Spec.tailCount side ps.length tp = n) (h1 : 1 ≤ n) (h2 : n < min k ps.length)
    {y u f m v xi a b : K} (hy : (Spec.byExtremity side (ps.map Prod.fst))[n - 1]? = some y)
    (hu : u = Spec.mirrored side y)
    (hf : f = Spec.share side tp)
    (hm : m = Spec.mean ((Spec.extremes side n (ps.map Prod.fst)).map (Spec.mirrored side)))
    (hv : v = Spec.variance ((Spec.extremes side n (ps.map Prod.fst)).map (Spec.mirrored side)))
    (hv0 : v ≠ 0) (hxi : xi = Spec.momentXi u m v) (hxi0 : xi ≠ 0)
    (ha : pw f xi = .val a) (hb : pw f (-xi) = .val b) :
    Fits (potProbSet pw H side hasNaN k v0 tp) ps (.val (u - Spec.momentBeta u m v * a * (b - 1) / xi), .val (Spec.momentBeta u m v * a),
          .val xi) := by
  obtain ⟨s, e, hc, htl, hmu, hs2, htp, hd, -⟩ := potProb_state pw H side hasNaN hk v0 tp ps
  have hlen := extremes_length side k (ps.map Prod.fst)
  rw [List.length_map] at hlen
  have hE : Spec.extremes side n (ps.map Prod.fst) ≠ [] := by
    have := extremes_length side n (ps.map Prod.fst)
    rw [List.length_map] at this
    intro h0
    rw [h0] at this
    simp at this
    omega
  have hEl : (Spec.extremes side n (ps.map Prod.fst)).length = n := by
    rw [extremes_length, List.length_map]; omega
  have hfun : (fun x : K => potSign side * x) = Spec.mirrored side := by
    funext x; exact potSign_mul side x
  obtain ⟨g1, g2⟩ := mirrored_mean_var side hE
  rw [hfun, ← hm, hEl] at g1
  rw [hfun, ← hv, hEl, g1] at g2
  have hn0 : (n : K) ≠ 0 := by exact_mod_cast (by omega : n ≠ 0)
  have hget : (Spec.extremes side k (ps.map Prod.fst))[n - 1]? = some y := by
    unfold Spec.extremes
    rw [List.getElem?_take_of_lt (by omega)]
    exact hy
  have hfrac : (1 : K) - Spec.share side (1 - tp) = f := by
    rw [hf]; cases side <;> simp [Spec.share]
  have hquery : ∃ t, potProbQuery pw H side hasNaN s = .val (t,
        (.val (u - Spec.momentBeta u m v * a * (b - 1) / xi), .val (Spec.momentBeta u m v * a), .val xi)) ∧
      potProbQuery pw H side hasNaN t = .val (t,
        (.val (u - Spec.momentBeta u m v * a * (b - 1) / xi), .val (Spec.momentBeta u m v * a),
          .val xi)) := by
    subst hxi
    have hres := potParams_val (pw := pw) (u := u) (m := m) (v := v)
      (t := Spec.share side (1 - tp)) (a := a) (b := b) hv0
      hxi0 (by rw [hfrac]; exact ha) (by rw [hfrac]; exact hb)
    have hyu : y * potSign side = u := by rw [mul_comm, potSign_mul, hu]
    have hstep : potProbQuery pw H side hasNaN s = .val
        ({ s with tail := tailSort H side s.tail, mu := .val m, sigma2 := .val v
                  tp := Spec.share side (1 - tp)
                  fit := potParams pw u (.val m) (.val v) (.val (Spec.share side (1 - tp)))
                  dirty := false },
          potParams pw u (.val m) (.val v) (.val (Spec.share side (1 - tp)))) := by
      unfold potProbQuery
      rw [if_pos hd, hc, htp, tailN_eq hn, Res.val_bind, htl, Res.val_bind]
      simp only
      rw [if_neg (by omega), if_neg (by omega), hget]
      simp only [hmu, hs2, Res.val_bind, foldl_add_sum, foldl_sq_sum, zero_add,
        extremes_take side (show n ≤ k by omega), fdiv_ne hn0, Res.pure_eq, g1, g2, hyu]
      cases side <;> simp [Spec.share]
    rw [hres] at hstep
    refine ⟨_, hstep, ?_⟩
    unfold potProbQuery
    rw [if_neg (by simp)]
    simp only [Res.pure_eq]
  obtain ⟨t, e1, e2⟩ := hquery
  exact ⟨s, t, e, e1, e2⟩

/-- **C30, partial** Threshold probability `tp`: with `n = ⌈count · (1 - tp)⌉` on the right (`⌈count · tp⌉` on
the left) and `1 ≤ n < ` number of cached samples, the threshold is the `n`-th most extreme sample, and the fit
uses mean and variance of the `n` most extreme samples of the whole stream.
Missing: interleaving of pushes and extractions, see `C30_prob_not_transparent`. -/
theorem C30_prob_fit_partial (pw : K → K → Res K) (H : HeapImpl ℕ) (side : Side) (hasNaN : Bool) {k : ℕ}
    (hk : 1 ≤ k) (v0 : V) (tp : K) (ps : List (K × V)) (q : ℕ) {n : ℕ}
    (hn : Spec.tailCount side ps.length tp = n) (h1 : 1 ≤ n) (h2 : n < min k ps.length)
    {y u f m v xi a b : K} (hy : (Spec.byExtremity side (ps.map Prod.fst))[n - 1]? = some y)
    (hu : u = Spec.mirrored side y)
    (hf : f = Spec.share side tp)
    (hm : m = Spec.mean ((Spec.extremes side n (ps.map Prod.fst)).map (Spec.mirrored side)))
    (hv : v = Spec.variance ((Spec.extremes side n (ps.map Prod.fst)).map (Spec.mirrored side)))
    (hv0 : v ≠ 0) (hxi : xi = Spec.momentXi u m v) (hxi0 : xi ≠ 0)
    (ha : pw f xi = .val a) (hb : pw f (-xi) = .val b) :
    (potProbSet pw H side hasNaN k v0 tp).answer (onlyPushes ps ++ List.replicate q (.query ())) ()
      = .val (.val (u - Spec.momentBeta u m v * a * (b - 1) / xi), .val (Spec.momentBeta u m v * a),
          .val xi) :=
  (potProb_fits pw H side hasNaN hk v0 tp ps hn h1 h2 hy hu hf hm hv hv0 hxi hxi0 ha hb).answer q

/-- **C30** Not enough cached samples: NaN (or an exception) at the first extraction ... -/
theorem C30_prob_too_few (pw : K → K → Res K) (H : HeapImpl ℕ) (side : Side) (hasNaN : Bool) {k : ℕ}
    (hk : 1 ≤ k) (v0 : V) (tp : K) (ps : List (K × V)) {n : ℕ}
    (hn : Spec.tailCount side ps.length tp = n) (h2 : min k ps.length ≤ n) :
    (potProbSet pw H side hasNaN k v0 tp).answer (onlyPushes ps) ()
      = (if hasNaN then .val (.nonfinite, .nonfinite, .nonfinite) else .thrown) := by
  obtain ⟨s, e, hc, htl, hmu, hs2, htp, hd, -⟩ := potProb_state pw H side hasNaN hk v0 tp ps
  have hlen := extremes_length side k (ps.map Prod.fst)
  rw [List.length_map] at hlen
  unfold RMachine.answer
  rw [e, Res.val_bind]
  have hq : (potProbSet pw H side hasNaN k v0 tp).query s () = potProbQuery pw H side hasNaN s := rfl
  rw [hq]
  unfold potProbQuery
  rw [if_pos hd, hc, htp, tailN_eq hn, Res.val_bind, htl, Res.val_bind]
  simp only
  rw [if_pos (by omega)]
  cases hasNaN <;> rfl

/-- **C30/C28 fails** ... but the second extraction in a row returns the triple (0, 0, 0). -/
theorem C30_prob_nan_then_zero (pw : K → K → Res K) (H : HeapImpl ℕ) (side : Side) {k : ℕ}
    (hk : 1 ≤ k) (v0 : V) (tp : K) (ps : List (K × V)) {n : ℕ}
    (hn : Spec.tailCount side ps.length tp = n) (h2 : min k ps.length ≤ n) :
    (potProbSet pw H side true k v0 tp).answer (onlyPushes ps ++ [.query ()]) ()
      = .val (.val 0, .val 0, .val 0) := by
  obtain ⟨s, e, hc, htl, hmu, hs2, htp, hd, hfit⟩ := potProb_state pw H side true hk v0 tp ps
  have hlen := extremes_length side k (ps.map Prod.fst)
  rw [List.length_map] at hlen
  unfold RMachine.answer
  rw [RMachine.exec_append, e, Res.val_bind]
  have hq : ∀ t, (potProbSet pw H side true k v0 tp).query t () = potProbQuery pw H side true t :=
    fun _ => rfl
  have h1 : potProbQuery pw H side true s = .val ({ s with tail := tailSort H side s.tail, dirty := false },
      (.nonfinite, .nonfinite, .nonfinite)) := by
    unfold potProbQuery
    rw [if_pos hd, hc, htp, tailN_eq hn, Res.val_bind, htl, Res.val_bind]
    simp only
    rw [if_pos (by omega)]
    rfl
  simp only [RMachine.exec, RMachine.exec1, hq, h1, Res.val_bind, Res.pure_eq]
  unfold potProbQuery
  rw [if_neg (by simp)]
  simp only [hfit, Res.pure_eq, Res.val_bind]

/-- **C56 fails at the edge** A threshold probability that leaves no sample beyond the threshold (1 on the
right, 0 on the left) reads before the beginning of the cache. -/
theorem C56_pot_prob_ub (pw : K → K → Res K) (H : HeapImpl ℕ) (side : Side) (hasNaN : Bool) {k : ℕ}
    (hk : 1 ≤ k) (v0 : V) (tp : K) (ps : List (K × V)) (hne : ps ≠ [])
    (hn : Spec.tailCount side ps.length tp = 0) :
    (potProbSet pw H side hasNaN k v0 tp).answer (onlyPushes ps) () = .ub := by
  obtain ⟨s, e, hc, htl, hmu, hs2, htp, hd, -⟩ := potProb_state pw H side hasNaN hk v0 tp ps
  have hlen := extremes_length side k (ps.map Prod.fst)
  rw [List.length_map] at hlen
  have := List.length_pos_of_ne_nil hne
  unfold RMachine.answer
  rw [e, Res.val_bind]
  have hq : (potProbSet pw H side hasNaN k v0 tp).query s () = potProbQuery pw H side hasNaN s := rfl
  rw [hq]
  unfold potProbQuery
  rw [if_pos hd, hc, htp, tailN_eq (n := 0) (by simpa using hn), Res.val_bind, htl, Res.val_bind]
  simp only
  rw [if_neg (by omega)]
  rfl

end prob

/-- A power function that is exact for the exponents occurring in the concrete cases below: everything else
is reported as 1.  (The shape estimate, the third component, does not use it at all.) -/
def demoPow (x y : ℚ) : Res ℚ := if y.den = 1 then .val (x ^ y.num) else .val 1

/-- **C30/C28 fails** Right tail, threshold probability 1/2: extracting after four samples changes what is
extracted after six. -/
theorem C30_prob_not_transparent :
    (fun r : PotFit ℚ => r.2.2) <$> (potProbSet demoPow HeapImpl.simple .right true 10 () (1 / 2)).answer
        (onlyPushes [((1 : ℚ), ()), (2, ()), (4, ()), (7, ()), (8, ()), (9, ())]) () = .val (.val (-1 / 4)) ∧
    (fun r : PotFit ℚ => r.2.2) <$> (potProbSet demoPow HeapImpl.simple .right true 10 () (1 / 2)).answer
        [.push ((1 : ℚ), ()), .push (2, ()), .push (4, ()), .push (7, ()), .query (), .push (8, ()),
          .push (9, ())] () ≠ .val (.val (-1 / 4)) := by
  constructor <;> decide +kernel

/-- **C30 fails** On the left every extraction replaces the threshold probability `p` by `1 - p`, so that the
next one looks at the wrong number of samples: with `p = 1/4` and eight samples the second fit uses six
samples instead of two. -/
theorem C30_prob_left_flips :
    (fun r : PotFit ℚ => r.2.2) <$> (potProbSet demoPow HeapImpl.simple .left true 10 () (1 / 4)).answer
        (onlyPushes [((1 : ℚ), ()), (2, ()), (4, ()), (7, ()), (8, ()), (9, ()), (10, ()), (11, ())]) ()
      ≠
    (fun r : PotFit ℚ => r.2.2) <$> (potProbSet demoPow HeapImpl.simple .left true 10 () (1 / 4)).answer
        [.push ((1 : ℚ), ()), .push (2, ()), .push (4, ()), .push (7, ()), .push (8, ()), .push (9, ()),
          .push (10, ()), .query (), .push (11, ())] () := by
  decide +kernel

/-! ## Weighted samples, threshold given as a probability -/

theorem wpotProb_exec_pushes (pw : K → K → Res K) (H : HeapImpl ℕ) (side : Side) (hasNaN : Bool)
    (k : ℕ) (tp : K) (ps : List (K × K)) (s : WPotProbSt K) {t : TailSt K K}
    (ht : tailExec H side s.tail (onlyPushes ps) = .val t) :
    (wpotProbSet pw H side hasNaN k tp).exec s (onlyPushes ps)
      = .val { s with total := s.total + Spec.wtotal ps, tail := t
                      dirty := if ps = [] then s.dirty else true } := by
  induction ps generalizing s with
  | nil =>
    simp only [onlyPushes, List.map_nil, tailExec, Res.val.injEq] at ht
    subst ht
    simp [onlyPushes, RMachine.exec, Spec.wtotal]
  | cons p ps ih =>
    simp only [onlyPushes, List.map_cons, tailExec, tailStep] at ht
    simp only [onlyPushes, List.map_cons, RMachine.exec, RMachine.exec1]
    have hpush : (wpotProbSet pw H side hasNaN k tp).push s p = wpotProbPush H side s p := rfl
    rw [hpush]
    unfold wpotProbPush
    cases htp : tailPush H side s.tail p.1 p.2 with
    | val t1 =>
      rw [htp, Res.val_bind] at ht
      rw [Res.val_bind, Res.pure_eq, Res.val_bind]
      have := ih { s with total := s.total + p.2, tail := t1, dirty := true } ht
      rw [show List.map Op.push ps = onlyPushes (Q := Unit) ps from rfl, this]
      have h1 : s.total + p.2 + Spec.wtotal ps = s.total + Spec.wtotal (p :: ps) := by
        simp [Spec.wtotal, add_assoc]
      simp only [h1]
      simp
    | _ => rw [htp] at ht; cases ht

theorem wpotLoop_found (T : K) (c : ℕ) (s m v : K) (ps : List (K × K)) {n : ℕ} (hn : n ≤ ps.length)
    (hlt : ∀ j < n, s + Spec.wtotal (ps.take j) < T) (hge : T ≤ s + Spec.wtotal (ps.take n)) :
    wpotLoop T c s (.val m) (.val v) ps
      = ((c + n, s + Spec.wtotal (ps.take n), .val (m + ((ps.take n).map fun p => p.2 * p.1).sum),
          .val (v + ((ps.take n).map fun p => p.2 * p.1 * p.1).sum)), true) := by
  induction ps generalizing c s m v n with
  | nil =>
    have : n = 0 := by simpa using hn
    subst this
    simp only [List.take_nil, Spec.wtotal, List.map_nil, List.sum_nil, add_zero] at hge ⊢
    simp [wpotLoop, hge]
  | cons w ps ih =>
    cases n with
    | zero =>
      simp only [List.take_zero, Spec.wtotal, List.map_nil, List.sum_nil, add_zero] at hge ⊢
      rw [wpotLoop, if_neg (not_lt.2 hge)]
    | succ n =>
      have h0 := hlt 0 (by omega)
      simp only [List.take_zero, Spec.wtotal, List.map_nil, List.sum_nil, add_zero] at h0
      rw [wpotLoop, if_pos h0]
      simp only [Res.val_bind, Res.pure_eq]
      rw [ih (n := n) (c + 1) (s + w.2) (m + w.2 * w.1) (v + w.2 * w.1 * w.1) (by simpa using hn)
        (fun j hj => by simpa [Spec.wtotal, add_assoc] using hlt (j + 1) (by omega))
        (by simpa [Spec.wtotal, add_assoc] using hge)]
      simp only [List.take_succ_cons, List.map_cons, List.sum_cons, Spec.wtotal, add_assoc,
        Nat.add_comm 1 n]

theorem wpotLoop_exhausted (T : K) (c : ℕ) (s : K) (m v : Res K) (ps : List (K × K))
    (hlt : ∀ j ≤ ps.length, s + Spec.wtotal (ps.take j) < T) : (wpotLoop T c s m v ps).2 = false := by
  induction ps generalizing c s m v with
  | nil =>
    have := hlt 0 (by simp)
    simp only [List.take_nil, Spec.wtotal, List.map_nil, List.sum_nil, add_zero] at this
    simp [wpotLoop, this]
  | cons w ps ih =>
    have h0 := hlt 0 (by omega)
    simp only [List.take_zero, Spec.wtotal, List.map_nil, List.sum_nil, add_zero] at h0
    rw [wpotLoop, if_pos h0]
    exact ih _ _ _ _ fun j hj => by
      simpa [Spec.wtotal, add_assoc] using hlt (j + 1) (by simpa using hj)

/-- State after pushing weighted samples into a fresh set, together with what is cached (helper). -/
theorem wpotProb_state (pw : K → K → Res K) (H : HeapImpl ℕ) (side : Side) (hasNaN : Bool) {k : ℕ}
    (hk : 1 ≤ k) (tp : K) (ps : List (K × K)) :
    ∃ (s : WPotProbSt K) (out D : List (K × K)),
      (wpotProbSet pw H side hasNaN k tp).exec (wpotProbSet pw H side hasNaN k tp).init (onlyPushes ps)
        = .val s ∧ s.total = Spec.wtotal ps ∧
      tailResult H side s.tail = .val (out.map Prod.fst) ∧
      tailVariateResult H side s.tail = .val (out.map Prod.snd) ∧
      extractTailVariate H side k (0 : K) (0 : K) (onlyPushes ps) = .val (out.map Prod.snd) ∧
      (out ++ D).Perm ps ∧ out.map Prod.fst = Spec.extremes side k (ps.map Prod.fst) ∧
      s.mu = .val 0 ∧ s.sigma2 = .val 0 ∧ s.tp = tp ∧ s.dirty = true ∧
      s.fit = (.val 0, .val 0, .val 0) := by
  obtain ⟨t, slots, hr, hi⟩ := tailRun_inv H side hk (0 : K) (0 : K) (onlyPushes ps)
  obtain ⟨out, h1, h2, h3, h4, D, h5, h6⟩ := hi.result H
  rw [pushes_onlyPushes] at h3 h5
  refine ⟨_, out, D, wpotProb_exec_pushes pw H side hasNaN k tp ps
    (wpotProbSet pw H side hasNaN k tp).init (t := t) hr, ?_, h1, h2, ?_, h5, ?_, ?_⟩
  · simp [wpotProbSet, wpotProbInit]
  · simp only [extractTailVariate, hr, Res.val_bind, h2]
  · have hp := h5.map Prod.fst
    rw [List.map_append] at hp
    refine eq_extremes hp (by simpa using h3) (List.pairwise_map.mpr h4) ?_
    intro d hd c hc
    obtain ⟨d', hd', rfl⟩ := List.mem_map.mp hd
    obtain ⟨c', hc', rfl⟩ := List.mem_map.mp hc
    exact h6 d' hd' c' hc'
  · simp [wpotProbSet, wpotProbInit]

/-- The fit (see `C30_weighted_prob_fit_partial`). -/
theorem wpotProb_fits (pw : K → K → Res K) (H : HeapImpl ℕ) (side : Side) (hasNaN : Bool)
    {k : ℕ} (hk : 1 ≤ k) (tp : K) (ps : List (K × K))
    (hT : 0 < Spec.wtotal ps * Spec.share side tp) {w : List K}
    (hw : extractTailVariate H side k (0 : K) (0 : K) (onlyPushes ps) = .val w)
    (hc : Spec.wtotal ps * Spec.share side tp ≤ w.sum) :
    ∃ (sel : List (K × K)) (y : K), sel.Subperm ps ∧ sel.map Prod.snd = w.take sel.length ∧
      sel.map Prod.fst = Spec.extremes side sel.length (ps.map Prod.fst) ∧
      Spec.wtotal ps * Spec.share side tp ≤ Spec.wtotal sel ∧
      (∀ j < sel.length, Spec.wtotal (sel.take j) < Spec.wtotal ps * Spec.share side tp) ∧
      (sel.map Prod.fst).getLast? = some y ∧
      ∀ (u m v xi a b : K), u = Spec.mirrored side y →
        m = Spec.wmean (sel.map fun p => (Spec.mirrored side p.1, p.2)) →
        v = Spec.wvariance (sel.map fun p => (Spec.mirrored side p.1, p.2)) → v ≠ 0 →
        xi = Spec.momentXi u m v → xi ≠ 0 →
        pw (Spec.share side tp) xi = .val a → pw (Spec.share side tp) (-xi) = .val b →
        Fits (wpotProbSet pw H side hasNaN k tp) ps (.val (u - Spec.momentBeta u m v * a * (b - 1) / xi), .val (Spec.momentBeta u m v * a),
              .val xi) := by
  obtain ⟨s, out, D, e, htot, htl, hvl, hv', hp, hex, hmu, hs2, htp, hd, -⟩ :=
    wpotProb_state pw H side hasNaN hk tp ps
  rw [hw, Res.val.injEq] at hv'
  subst hv'
  have hlev : Spec.wtotal ps * tailLevel side tp = Spec.wtotal ps * Spec.share side tp := by
    cases side <;> rfl
  have hwt : ∀ n, ((out.map Prod.snd).take n).sum = Spec.wtotal (out.take n) := by
    intro n; rw [← List.map_take]; rfl
  rcases prefix_cases (Spec.wtotal ps * Spec.share side tp) (out.map Prod.snd) with
    ⟨n, hn, hlt, hge⟩ | hall
  swap
  · have := hall _ le_rfl
    rw [List.take_length] at this
    linarith
  rw [List.length_map] at hn
  simp only [hwt] at hlt hge
  cases n with
  | zero => simp [Spec.wtotal] at hge; simp [Spec.wtotal] at hT; linarith
  | succ n =>
    have hl : (out.take (n + 1)).length = n + 1 := by simp [hn]
    have hW0 : Spec.wtotal (out.take (n + 1)) ≠ 0 := by
      have := lt_of_lt_of_le hT hge
      exact this.ne'
    refine ⟨out.take (n + 1), (out[n]'(by omega)).1, ?_, ?_, ?_, hge, ?_, ?_, ?_⟩
    · exact ((List.take_sublist _ out).trans (List.sublist_append_left out D)).subperm.trans hp.subperm
    · rw [hl, List.map_take]
    · rw [hl, List.map_take, hex]
      have hlen := congrArg List.length hex
      rw [List.length_map, extremes_length] at hlen
      rw [extremes_take side (by omega)]
    · intro j hj
      rw [hl] at hj
      rw [List.take_take, min_eq_left (by omega)]
      exact hlt j hj
    · rw [List.getLast?_eq_getElem?]
      simp [hn]
    · intro u m v xi a b hu hm hv hv0 hxi hxi0 ha hb
      have hfun : (fun p : K × K => (potSign side * p.1, p.2)) = fun p => (Spec.mirrored side p.1, p.2) := by
        funext p; rw [potSign_mul]
      obtain ⟨g1, g2⟩ := wmirrored_mean_var side hW0
      rw [hfun, ← hm] at g1
      rw [hfun, ← hv, g1] at g2
      have hfrac : (1 : K) - Spec.share side (1 - tp) = Spec.share side tp := by
        cases side <;> simp [Spec.share]
      subst hxi
      have hres := potParams_val (pw := pw) (u := u) (m := m) (v := v)
        (t := Spec.share side (1 - tp)) (a := a) (b := b) hv0
        hxi0 (by rw [hfrac]; exact ha) (by rw [hfrac]; exact hb)
      have hyu : (out[n]'(by omega)).1 * potSign side = u := by rw [mul_comm, potSign_mul, hu]
      have hloop := wpotLoop_found (Spec.wtotal ps * Spec.share side tp) 0 0 0 0 out (n := n + 1) hn
        (by simpa using hlt) (by simpa using hge)
      simp only [zero_add] at hloop
      have hzip : (out.map Prod.fst).zip (out.map Prod.snd) = out := by
        rw [List.zip_map', List.map_id']
      have hstep : wpotProbQuery pw H side hasNaN s = .val
          ({ s with tail := tailSort H side s.tail, mu := .val m, sigma2 := .val v
                    tp := Spec.share side (1 - tp)
                    fit := potParams pw u (.val m) (.val v) (.val (Spec.share side (1 - tp)))
                    dirty := false },
            potParams pw u (.val m) (.val v) (.val (Spec.share side (1 - tp)))) := by
        unfold wpotProbQuery
        rw [if_pos hd, htl, Res.val_bind, hvl, Res.val_bind, htot, htp, hmu, hs2, hlev, hzip, hloop]
        simp only [if_true, Nat.add_eq_zero_iff, one_ne_zero, and_false, if_false, Nat.add_sub_cancel]
        rw [List.getElem?_eq_getElem (by simpa using hn)]
        simp only [List.getElem_map, Res.val_bind, fdiv_ne hW0, Res.pure_eq, g1, g2, hyu]
        cases side <;> simp [Spec.share]
      rw [hres] at hstep
      refine ⟨s, _, e, hstep, ?_⟩
      have hq : ∀ t, (wpotProbSet pw H side hasNaN k tp).query t () = wpotProbQuery pw H side hasNaN t :=
        fun _ => rfl
      rw [hq]
      unfold wpotProbQuery
      rw [if_neg (by simp)]
      simp only [Res.pure_eq]

/-- **C30, partial** Weighted samples and threshold probability `tp`: if the weights listed by
`tail_weights(acc)` reach the share of the total weight beyond `tp`, a selection `sel` of the pushed samples —
the most extreme ones, just enough of them to reach the share — is fitted; the threshold is the last one
selected.
Missing: interleaving of pushes and extractions. -/
theorem C30_weighted_prob_fit_partial (pw : K → K → Res K) (H : HeapImpl ℕ) (side : Side) (hasNaN : Bool)
    {k : ℕ} (hk : 1 ≤ k) (tp : K) (ps : List (K × K)) (q : ℕ)
    (hT : 0 < Spec.wtotal ps * Spec.share side tp) {w : List K}
    (hw : extractTailVariate H side k (0 : K) (0 : K) (onlyPushes ps) = .val w)
    (hc : Spec.wtotal ps * Spec.share side tp ≤ w.sum) :
    ∃ (sel : List (K × K)) (y : K), sel.Subperm ps ∧ sel.map Prod.snd = w.take sel.length ∧
      sel.map Prod.fst = Spec.extremes side sel.length (ps.map Prod.fst) ∧
      Spec.wtotal ps * Spec.share side tp ≤ Spec.wtotal sel ∧
      (∀ j < sel.length, Spec.wtotal (sel.take j) < Spec.wtotal ps * Spec.share side tp) ∧
      (sel.map Prod.fst).getLast? = some y ∧
      ∀ (u m v xi a b : K), u = Spec.mirrored side y →
        m = Spec.wmean (sel.map fun p => (Spec.mirrored side p.1, p.2)) →
        v = Spec.wvariance (sel.map fun p => (Spec.mirrored side p.1, p.2)) → v ≠ 0 →
        xi = Spec.momentXi u m v → xi ≠ 0 →
        pw (Spec.share side tp) xi = .val a → pw (Spec.share side tp) (-xi) = .val b →
        (wpotProbSet pw H side hasNaN k tp).answer (onlyPushes ps ++ List.replicate q (.query ())) ()
          = .val (.val (u - Spec.momentBeta u m v * a * (b - 1) / xi), .val (Spec.momentBeta u m v * a),
              .val xi) := by
  obtain ⟨sel, y, h1, h2, h3, h4, h5, h6, h7⟩ := wpotProb_fits pw H side hasNaN hk tp ps hT hw hc
  exact ⟨sel, y, h1, h2, h3, h4, h5, h6, fun u m v xi a b hu hm hv hv0 hxi hxi0 ha hb =>
    (h7 u m v xi a b hu hm hv hv0 hxi hxi0 ha hb).answer q⟩

/-- **C30** Cached weights not reaching the share: NaN or an exception. -/
theorem C30_weighted_prob_too_few (pw : K → K → Res K) (H : HeapImpl ℕ) (side : Side) (hasNaN : Bool)
    {k : ℕ} (hk : 1 ≤ k) (tp : K) (ps : List (K × K)) {w : List K}
    (hw : extractTailVariate H side k (0 : K) (0 : K) (onlyPushes ps) = .val w)
    (hc : ∀ j ≤ w.length, (w.take j).sum < Spec.wtotal ps * Spec.share side tp) :
    (wpotProbSet pw H side hasNaN k tp).answer (onlyPushes ps) ()
      = (if hasNaN then .val (.nonfinite, .nonfinite, .nonfinite) else .thrown) := by
  obtain ⟨s, out, D, e, htot, htl, hvl, hv', hp, hex, hmu, hs2, htp, hd, -⟩ :=
    wpotProb_state pw H side hasNaN hk tp ps
  rw [hw, Res.val.injEq] at hv'
  subst hv'
  have hlev : Spec.wtotal ps * tailLevel side tp = Spec.wtotal ps * Spec.share side tp := by
    cases side <;> rfl
  have hzip : (out.map Prod.fst).zip (out.map Prod.snd) = out := by
    rw [List.zip_map', List.map_id']
  have hloop := wpotLoop_exhausted (Spec.wtotal ps * Spec.share side tp) 0 0 (.val 0) (.val 0) out
    (fun j hj => by
      have := hc j (by simpa using hj)
      rw [← List.map_take] at this
      simpa [Spec.wtotal] using this)
  unfold RMachine.answer
  rw [e, Res.val_bind]
  have hq : (wpotProbSet pw H side hasNaN k tp).query s () = wpotProbQuery pw H side hasNaN s := rfl
  rw [hq]
  unfold wpotProbQuery
  rw [if_pos hd, htl, Res.val_bind, hvl, Res.val_bind, htot, htp, hmu, hs2, hlev, hzip]
  simp only [hloop]
  cases hasNaN <;> rfl

/-- **C56 fails at the edge** No weight beyond the threshold (in particular: nothing pushed yet): the fit reads
before the beginning of the cache. -/
theorem C56_weighted_pot_prob_ub (pw : K → K → Res K) (H : HeapImpl ℕ) (side : Side) (hasNaN : Bool) {k : ℕ}
    (hk : 1 ≤ k) (tp : K) (ps : List (K × K)) (hT : Spec.wtotal ps * Spec.share side tp ≤ 0) :
    (wpotProbSet pw H side hasNaN k tp).answer (onlyPushes ps) () = .ub := by
  obtain ⟨s, out, D, e, htot, htl, hvl, hv', hp, hex, hmu, hs2, htp, hd, -⟩ :=
    wpotProb_state pw H side hasNaN hk tp ps
  have hlev : Spec.wtotal ps * tailLevel side tp = Spec.wtotal ps * Spec.share side tp := by
    cases side <;> rfl
  have hzip : (out.map Prod.fst).zip (out.map Prod.snd) = out := by
    rw [List.zip_map', List.map_id']
  have hloop := wpotLoop_found (Spec.wtotal ps * Spec.share side tp) 0 0 0 0 out (n := 0) (by omega)
    (by simp) (by simpa [Spec.wtotal] using hT)
  unfold RMachine.answer
  rw [e, Res.val_bind]
  have hq : (wpotProbSet pw H side hasNaN k tp).query s () = wpotProbQuery pw H side hasNaN s := rfl
  rw [hq]
  unfold wpotProbQuery
  rw [if_pos hd, htl, Res.val_bind, hvl, Res.val_bind, htot, htp, hmu, hs2, hlev, hzip, hloop]
  rfl

/-! ## Left and right -/

/-- **C55** One extraction after pushing: the left fit of a stream is the right fit of the negated stream with
the negated threshold, all outcomes included. -/
theorem C55_pot_mirror (pw : K → K → Res K) (thr : K) (xs : List K) :
    (potSet pw .left (-thr)).answer (onlyPushes (xs.map fun x => -x)) ()
      = (potSet pw .right thr).answer (onlyPushes xs) () := by
  obtain ⟨s, e, hc, hnu, hmu, hs2, ht, hd⟩ := pot_state pw .left (-thr) (xs.map fun x => -x)
  obtain ⟨s', e', hc', hnu', hmu', hs2', ht', hd'⟩ := pot_state pw .right thr xs
  have hh : potHits .left (-thr) (xs.map fun x => -x) = (potHits .right thr xs).map fun x => -x := by
    unfold potHits
    rw [List.filter_map]
    congr 1
    apply List.filter_congr
    intro x _
    simp [potSign]
  have hsum : ((potHits .right thr xs).map fun x => -x).sum = -(potHits .right thr xs).sum := by
    generalize potHits Side.right thr xs = l
    induction l with
    | nil => simp
    | cons x l ih => simp [ih]; ring
  have hsq : (((potHits .right thr xs).map fun x => -x).map fun x => x * x).sum
      = ((potHits .right thr xs).map fun x => x * x).sum := by
    rw [List.map_map]
    congr 1
    apply List.map_congr_left
    intro x _
    simp
  rw [hh, List.length_map] at hnu
  rw [hh, hsum] at hmu
  rw [hh, hsq] at hs2
  rw [List.length_map] at hc
  have hq : (potQuery pw .left s).2 = (potQuery pw .right s').2 := by
    unfold potQuery
    rw [if_pos hd, if_pos hd', hc, hc', hnu, hnu', hmu, hmu', hs2, hs2', ht, ht']
    have hsgn : ∀ n : K, (Res.val (-(potHits Side.right thr xs).sum) >>= fun m =>
          (fdiv m n >>= fun q => (pure (potSign Side.left * q) : Res K)))
        = (Res.val (potHits Side.right thr xs).sum >>= fun m =>
          (fdiv m n >>= fun q => (pure (potSign Side.right * q) : Res K))) := by
      intro n
      simp only [Res.val_bind]
      unfold fdiv
      split
      · rfl
      · simp [potSign, neg_div]
    simp only [hsgn]
    simp [potSign]
  unfold RMachine.answer
  rw [e, e', Res.val_bind, Res.val_bind]
  have h1 : (potSet pw .left (-thr)).query s () = .val (potQuery pw .left s) := rfl
  have h2 : (potSet pw .right thr).query s' () = .val (potQuery pw .right s') := rfl
  rw [h1, h2, Res.val_bind, Res.val_bind, hq]

/-- **C55 fails with interleaved extractions** (a consequence of C30): the two sides disagree. -/
theorem C55_pot_fails (pw : ℚ → ℚ → Res ℚ) :
    (fun r : PotFit ℚ => r.2.2) <$> (potSet pw .left 0).answer
        [.push (-1), .push (-2), .query (), .push (-6 : ℚ)] ()
      ≠ (fun r : PotFit ℚ => r.2.2) <$> (potSet pw .right 0).answer
        [.push 1, .push 2, .query (), .push (6 : ℚ)] () := by
  norm_num [RMachine.answer, RMachine.exec, RMachine.exec1, onlyPushes, potSet, potInit, potPush,
      potQuery, potParams, potSign, fdiv]

/-! ## Concrete cases -/

/-- Hypotheses of `C30_fit_partial`: threshold 1, exceedances 3, 5, 7 out of four samples. -/
example : Spec.exceedances Side.right (1 : ℚ) [3, 5, 1, 7] = [3, 5, 7] ∧
    Spec.mean ([3, 5, 7] : List ℚ) = 5 ∧ Spec.variance ([3, 5, 7] : List ℚ) = 8 / 3 ∧
    Spec.momentXi (1 : ℚ) 5 (8 / 3) = -5 / 2 := by
  refine ⟨by decide +kernel, ?_, ?_, ?_⟩ <;>
    norm_num [Spec.mean, Spec.variance, Spec.centralMoment, Spec.momentXi]
example : Spec.exceedances Side.left (4 : ℚ) [3, 5, 1, 7] = [-3, -1] := by decide +kernel
example : (potSet demoPow .right 1).answer (onlyPushes [3, 5, 1, (7 : ℚ)]) ()
    = .val (.val 1, .val 14, .val (-5 / 2)) := by decide +kernel

end Acc
