import Verif.Props.Memory

/-!
# C80: results that are ranges into the accumulator

`density`, `p_square_cumulative_distribution`, `extended_p_square`, `tail` and their weighted versions do not return
values but pairs of iterators into members of the accumulator (density.hpp:71, 186, weighted_density.hpp:59, 173,
p_square_cumul_dist.hpp:63, 207, weighted_p_square_cumul_dist.hpp:60, 221, extended_p_square.hpp:235-236,
weighted_extended_p_square.hpp:250-251, tail.hpp:156-159, 217-221).  Here the program keeps such a range, goes on to push,
extract and drop, and reads through the range later.

The containers are never resized after construction (C77), and `indices` of the tail only grows within what was reserved
(tail.hpp:167, 175), so the iterators stay valid; a range is therefore the positions it covers, and reading through it is a
function of the members at that time.  Not modelled: ranges over the circular buffer of `rolling_window`, whose iterators
are invalidated when the buffer overwrites; `tail_variate_means`, whose vector is overwritten by every extraction
(tail_variate_means.hpp:128-146).
-/

set_option linter.unusedSectionVars false

namespace Acc

open StdF

namespace Cell

/-- What is read through a range over the member `histogram` (density.hpp:186, weighted_density.hpp:173,
p_square_cumul_dist.hpp:207, weighted_p_square_cumul_dist.hpp:221). -/
def shown {K : Type} : Cell K → Option (List (K × Res K))
  | dens (.val s) => some s.hist
  | wdens (.val s) => some s.hist
  | cumul (.val s) => some s.hist
  | wcumul (.val s) => some s.hist
  | _ => Option.none

/-- What is read through a range returned by `tail` when `n` samples were cached: the samples with the indices at
positions `n - 1` down to `0` (tail.hpp:57-69, 217-221). -/
def tailShown {K : Type} (n : ℕ) : Cell K → Option (Res (List K))
  | tail (.val s) => some (readSlots s.samples (s.indices.take n).reverse)
  | _ => Option.none

/-- What is read through a range returned by `extended_p_square` (extended_p_square.hpp:235-236,
times2_iterator.hpp:25-44): the heights at positions 2, 4, ... -/
def extShown {K : Type} (q : ℕ) : Cell K → Option (Res (List K))
  | psq (.val s) => some (mapRes (fun i => getAt s.heights (2 * i)) (List.range' 1 q))
  | wpsq (.val s) => some (mapRes (fun i => getAt s.heights (2 * i)) (List.range' 1 q))
  | _ => Option.none

section
variable {K : Type} [Field K] [LinearOrder K] [IsStrictOrderedRing K] [FloorRing K]

/-! ## Pushes -/

theorem densityStep_hist {n : ℕ} {mn mx : K} {s s' : DensitySt K} {x : K} (h : densityStep n mn mx s x = .val s') :
    s'.hist = s.hist := by
  unfold densityStep at h
  have key : ∀ cache : List K,
      (let s := { s with cnt := n, mn := mn, mx := mx, cache := cache, dirty := true }
      if n = s.cacheSize then do
        let minimum ← fdiv mn 1
        let maximum ← fdiv mx 1
        let binSize ← fdiv (maximum - minimum) (s.numBins : K)
        let pos := binPositions s.numBins minimum binSize
        let bins ← foldRes (fun bins y => binAdd s.numBins pos bins y 1) s.bins cache
        pure { s with pos := pos, bins := bins }
      else if s.cacheSize < n then do
        let bins ← binAdd s.numBins s.pos s.bins x 1
        pure { s with bins := bins }
      else .val s : Res (DensitySt K)) = .val s' → s'.hist = s.hist := by
    intro cache h
    dsimp only at h
    split at h
    · obtain ⟨_, -, h⟩ := Res.bind_eq_val.1 h
      obtain ⟨_, -, h⟩ := Res.bind_eq_val.1 h
      obtain ⟨_, -, h⟩ := Res.bind_eq_val.1 h
      obtain ⟨_, -, h⟩ := Res.bind_eq_val.1 h
      injection h with h
      rw [← h]
    · split at h
      · obtain ⟨_, -, h⟩ := Res.bind_eq_val.1 h
        injection h with h
        rw [← h]
      · injection h with h
        rw [← h]
  split at h
  · obtain ⟨cache, -, h⟩ := Res.bind_eq_val.1 h
    exact key cache h
  · exact key s.cache h

theorem wdensityStep_hist {n : ℕ} {w mn mx : K} {s s' : WDensitySt K} {x : K × K}
    (h : wdensityStep n w mn mx s x = .val s') : s'.hist = s.hist := by
  unfold wdensityStep at h
  have key : ∀ cache : List (K × K),
      (let s := { s with cnt := n, wsum := w, mn := mn, mx := mx, cache := cache, dirty := true }
      if n = s.cacheSize then do
        let minimum ← fdiv mn 1
        let maximum ← fdiv mx 1
        let binSize ← fdiv (maximum - minimum) (s.numBins : K)
        let pos := binPositions s.numBins minimum binSize
        let bins ← foldRes (fun bins q => binAdd s.numBins pos bins q.1 q.2) s.bins cache
        pure { s with pos := pos, bins := bins }
      else if s.cacheSize < n then do
        let bins ← binAdd s.numBins s.pos s.bins x.1 x.2
        pure { s with bins := bins }
      else .val s : Res (WDensitySt K)) = .val s' → s'.hist = s.hist := by
    intro cache h
    dsimp only at h
    split at h
    · obtain ⟨_, -, h⟩ := Res.bind_eq_val.1 h
      obtain ⟨_, -, h⟩ := Res.bind_eq_val.1 h
      obtain ⟨_, -, h⟩ := Res.bind_eq_val.1 h
      obtain ⟨_, -, h⟩ := Res.bind_eq_val.1 h
      injection h with h
      rw [← h]
    · split at h
      · obtain ⟨_, -, h⟩ := Res.bind_eq_val.1 h
        injection h with h
        rw [← h]
      · injection h with h
        rw [← h]
  split at h
  · obtain ⟨cache, -, h⟩ := Res.bind_eq_val.1 h
    exact key cache h
  · exact key s.cache h

/-- The update of an accumulator leaves its histogram alone. -/
theorem step_shown {cfg : Cfg K} (env : Env StdF (Cell K)) (a : FArgs K) {f : StdF} {c : Cell K} {l : List (K × Res K)}
    (h : (step cfg env a f (some (f, c))).shown = some l) : c.shown = some l := by
  cases he : elementary f with
  | true => rw [step_elem _ _ he] at h; cases h
  | false =>
    cases f with
    | density =>
      cases c with
      | dens s =>
        change Cell.shown (.dens _) = _ at h
        generalize hr : (if countOf env = 0 then Res.ub else _) = r at h
        cases r with
        | val s' =>
          split at hr
          · cases hr
          · obtain ⟨mn, -, hr⟩ := bind_val_of hr
            obtain ⟨mx, -, hr⟩ := bind_val_of hr
            obtain ⟨s0, h0, hr⟩ := bind_val_of hr
            subst h0
            rw [← h]
            exact congrArg some (densityStep_hist hr).symm
        | _ => cases h
      | _ => cases h
    | weightedDensity =>
      cases c with
      | wdens s =>
        change Cell.shown (.wdens _) = _ at h
        generalize hr : (if countOf env = 0 then Res.ub else _) = r at h
        cases r with
        | val s' =>
          split at hr
          · cases hr
          · obtain ⟨mn, -, hr⟩ := bind_val_of hr
            obtain ⟨mx, -, hr⟩ := bind_val_of hr
            obtain ⟨w, -, hr⟩ := bind_val_of hr
            obtain ⟨s0, h0, hr⟩ := bind_val_of hr
            subst h0
            rw [← h]
            exact congrArg some (wdensityStep_hist hr).symm
        | _ => cases h
      | _ => cases h
    | pSquareCumul =>
      cases c with
      | cumul s =>
        change Cell.shown (.cumul _) = _ at h
        generalize hr : (if countOf env = 0 then Res.ub else _) = r at h
        cases r with
        | val s' =>
          split at hr
          · cases hr
          · obtain ⟨s0, h0, hr1⟩ := bind_val_of hr
            subst h0
            obtain ⟨m, hm, hr⟩ := bind_val_of hr1
            injection hr with hr
            rw [← h, ← hr]
            rfl
        | _ => cases h
      | _ => cases h
    | weightedPSquareCumul =>
      cases c with
      | wcumul s =>
        change Cell.shown (.wcumul _) = _ at h
        generalize hr : (if countOf env = 0 then Res.ub else _) = r at h
        cases r with
        | val s' =>
          split at hr
          · cases hr
          · obtain ⟨w, -, hr⟩ := bind_val_of hr
            obtain ⟨s0, h0, hr1⟩ := bind_val_of hr
            subst h0
            obtain ⟨m, hm, hr⟩ := bind_val_of hr1
            injection hr with hr
            rw [← h, ← hr]
            rfl
        | _ => cases h
      | _ => cases h
    | tailVariate v side => exact h
    | tailWeights side => exact h
    | rollingVariance =>
      cases c with
      | rollVar v => simp only [step] at h; split at h <;> cases h
      | _ => cases h
    | immediateRollingVariance =>
      cases c with
      | rollVar v => simp only [step] at h; split at h <;> cases h
      | _ => cases h
    | _ => first | (cases he; done) | (cases c <;> cases h)

theorem write_shown {cfg : Cfg K} (f : StdF) (env : Env StdF (Cell K)) (a : FArgs K) (t : Tag StdF) (c : Cell K) :
    (write cfg f env a t c).shown = c.shown := by
  unfold write
  split
  · split <;> rfl
  · split <;> rfl
  · rfl

/-- If after a push a histogram is there, it was there before. -/
theorem visit_shown {cfg : Cfg K} {S : List (Tag StdF)} {refs : StdF → ℕ} {a : FArgs K} {env : Env StdF (Cell K)}
    (ht : Total S env) {t : Tag StdF} (hm : t ∈ S) {k : StdF} {l : List (K × Res K)}
    (h : ((stdLib.visitX (fullImpl cfg) S refs a env t) k).bind (fun c => c.2.shown) = some l) :
    (env k).bind (fun c => c.2.shown) = some l := by
  unfold Lib.visitX at h
  split at h
  · exact h
  · dsimp only at h
    split at h
    · rename_i hk
      obtain ⟨c0, h0⟩ := ht t hm
      have h' : (step cfg env a t.base (env (stdLib.tkey t))).shown = some l := h
      rw [h0] at h'
      rw [hk, h0]
      exact step_shown env a h'
    · split at h
      · rcases he : env k with _ | ⟨f', c'⟩
        · rw [he] at h; cases h
        · rw [he] at h
          have h' : (write cfg t.base env a _ c').shown = some l := h
          rw [write_shown] at h'
          exact h'
      · exact h

theorem push_shown {cfg : Cfg K} {S : List (Tag StdF)} (hnd : (S.map stdLib.tkey).Nodup) {refs : StdF → ℕ}
    {a : FArgs K} (S' : List (Tag StdF)) (hS : ∀ t ∈ S', t ∈ S) {env : Env StdF (Cell K)} (ht : Total S env) {k : StdF}
    {l : List (K × Res K)}
    (h : ((stdLib.pushX (fullImpl cfg) S refs S' env a) k).bind (fun c => c.2.shown) = some l) :
    (env k).bind (fun c => c.2.shown) = some l := by
  induction S' generalizing env with
  | nil => exact h
  | cons t S' ih =>
    have hm := hS t (by simp)
    rw [Lib.pushX, List.foldl_cons, ← Lib.pushX] at h
    exact visit_shown ht hm (ih (fun t ht => hS t (by simp [ht])) (total_visit hnd ht hm) h)

/-! ## Extractions -/

theorem densityQuery_hist {s : DensitySt K} {r : DensitySt K × List (K × Res K)} (h : densityQuery s = .val r) :
    r.1.hist = r.2 := by
  unfold densityQuery at h
  split at h
  · obtain ⟨l, hl, h⟩ := Res.bind_eq_val.1 h
    injection h with h
    rw [← h]
  · injection h with h
    rw [← h]

theorem wdensityQuery_hist {s : WDensitySt K} {r : WDensitySt K × List (K × Res K)} (h : wdensityQuery s = .val r) :
    r.1.hist = r.2 := by
  unfold wdensityQuery at h
  split at h
  · obtain ⟨l, hl, h⟩ := Res.bind_eq_val.1 h
    injection h with h
    rw [← h]
  · injection h with h
    rw [← h]

/-- After an extraction that returns a histogram, the range shows it. -/
theorem extract_shown {cfg : Cfg K} {p : K} {k : StdF} {env : Env StdF (Cell K)} {l : List (K × Res K)}
    (h : (extract cfg p k env).2 = .hist (.val l)) :
    ((extract cfg p k env).1 k).bind (fun c => c.2.shown) = some l := by
  unfold extract at h ⊢
  rw [extractN] at h ⊢
  rcases he : env k with _ | ⟨f, c⟩
  · rw [he] at h; cases h
  · rw [he] at h
    dsimp only at h ⊢
    rw [if_pos rfl]
    show (settle cfg _ _ f c).shown = some l
    generalize readAll (extractN cfg p (StdF.rank k)) (reads f c) env = r at h ⊢
    obtain ⟨env', rd⟩ := r
    dsimp only at h ⊢
    unfold result at h
    dsimp only at h
    split at h <;> try (cases h)
    · injection h with h
      obtain ⟨s0, rfl, h1⟩ := bind_val_of h
      obtain ⟨r, h2, h3⟩ := bind_val_of h1
      injection h3 with h3
      simp only [settle, Res.bind, h2]
      rw [← h3]
      exact congrArg some (densityQuery_hist h2)
    · injection h with h
      obtain ⟨w, hw, h⟩ := bind_val_of h
      obtain ⟨s0, rfl, h1⟩ := bind_val_of h
      obtain ⟨r, h2, h3⟩ := bind_val_of h1
      injection h3 with h3
      simp only [settle, hw, Res.bind, h2]
      rw [← h3]
      exact congrArg some (wdensityQuery_hist h2)
    · injection h with h
      obtain ⟨s0, rfl, h1⟩ := bind_val_of h
      simp only [settle]
      split at h1
      · rename_i hd
        simp only [if_pos hd, h1]
        rfl
      · rename_i hd
        injection h1 with h1
        simp only [if_neg hd]
        exact congrArg some h1
    · injection h with h
      obtain ⟨w, hw, h⟩ := bind_val_of h
      obtain ⟨s0, rfl, h1⟩ := bind_val_of h
      simp only [settle]
      split at h1
      · rename_i hd
        simp only [if_pos hd, hw, Res.bind, h1]
        rfl
      · rename_i hd
        injection h1 with h1
        simp only [if_neg hd]
        exact congrArg some h1

/-- Extracting other features than the median does not touch the histograms. -/
theorem extractN_shown {cfg : Cfg K} {S : List (Tag StdF)} (p : K) {k : StdF} (hk : k = density ∨ k = pSquareCumul)
    (m : ℕ) : ∀ k' env, SmallSet cfg S env → k' ≠ k → k' ≠ median → (extractN cfg p m k' env).1 k = env k := by
  have hreads : ∀ f (c : Cell K), key f ≠ median → ∀ k' ∈ reads f c, k' ≠ k ∧ k' ≠ median := by
    intro f c hf k' hk'
    rcases hk with rfl | rfl <;>
    · cases f with
      | withDensityMedian => exact absurd rfl hf
      | withCumulMedian => exact absurd rfl hf
      | withDensityWeightedMedian => exact absurd rfl hf
      | withCumulWeightedMedian => exact absurd rfl hf
      | median => exact absurd rfl hf
      | weightedMedian => exact absurd rfl hf
      | peaksOverThresholdProb side =>
        cases c with
        | potProb mu sigma2 tp fit d =>
          cases d <;> simp [reads] at hk'
          subst hk'
          exact ⟨by decide, by decide⟩
        | _ => simp [reads] at hk'
      | weightedPeaksOverThresholdProb side =>
        cases c with
        | potProb mu sigma2 tp fit d =>
          cases d <;> simp [reads] at hk'
          rcases hk' with rfl | rfl <;> exact ⟨by decide, by decide⟩
        | _ => simp [reads] at hk'
      | _ =>
        first
        | exact absurd hk' List.not_mem_nil
        | (simp only [reads, List.mem_cons, List.not_mem_nil, or_false] at hk'
           rcases hk' with rfl | rfl | rfl <;> exact ⟨by decide, by decide⟩)
  induction m with
  | zero => exact fun k' env _ _ _ => rfl
  | succ m ih =>
    intro k' env h hne hmed
    rw [extractN]
    rcases he : env k' with _ | ⟨f, c⟩
    · rfl
    · dsimp only
      rw [if_neg (Ne.symm hne)]
      have hf : key f ≠ median := by
        obtain ⟨t, -, h1, h2⟩ := h.dom _ _ _ he
        rw [← h2]
        intro e
        exact hmed (h1.symm.trans e)
      have : ∀ (ks : List StdF), (∀ x ∈ ks, x ≠ k ∧ x ≠ median) → ∀ env, SmallSet cfg S env →
          (readAll (extractN cfg p m) ks env).1 k = env k := by
        intro ks
        induction ks with
        | nil => exact fun _ env _ => rfl
        | cons x ks ihk =>
          intro hks env h
          rw [readAll]
          dsimp only
          rw [ihk (fun y hy => hks y (by simp [hy])) _ (extractN_small p m x env h).1]
          exact ih x env h (hks x (by simp)).1 (hks x (by simp)).2
      exact this _ (hreads f c hf) env h

/-- Only these features return histograms. -/
theorem extract_hist_key {cfg : Cfg K} {S : List (Tag StdF)} {p : K} {k : StdF} {env : Env StdF (Cell K)}
    (hd : Dom S env) {l : List (K × Res K)} (h : (extract cfg p k env).2 = .hist (.val l)) :
    k = density ∨ k = pSquareCumul := by
  unfold extract at h
  rw [extractN] at h
  rcases he : env k with _ | ⟨f, c⟩
  · rw [he] at h; cases h
  · rw [he] at h
    dsimp only at h
    obtain ⟨t, -, rfl, rfl⟩ := hd _ _ _ he
    show key t.base = _ ∨ key t.base = _
    generalize t.base = f at h
    unfold result at h
    dsimp only at h
    split at h <;> first | exact Or.inl rfl | exact Or.inr rfl | cases h

/-! ## The tail -/

/-- The number of cached samples. -/
def tailCount : Cell K → Option ℕ
  | tail (.val s) => some s.indices.length
  | _ => Option.none

theorem step_tailCount {cfg : Cfg K} (env : Env StdF (Cell K)) (a : FArgs K) {f : StdF} {c : Cell K}
    (hs : Small cfg f c) {m : ℕ} (h : (step cfg env a f (some (f, c))).tailCount = some m) :
    ∃ n, c.tailCount = some n ∧ n ≤ m := by
  cases he : elementary f with
  | true => rw [step_elem _ _ he] at h; cases h
  | false =>
    cases f with
    | tail side =>
      cases c with
      | tail s =>
        change Cell.tailCount (.tail (TailOwn.next cfg.heap side s a.x)) = _ at h
        generalize hr : TailOwn.next cfg.heap side s a.x = r at h
        cases r with
        | val s' =>
          obtain ⟨s0, rfl, hr'⟩ := bind_val_of hr
          obtain ⟨ps, st, slots, h1, rfl⟩ := hs
          refine ⟨_, rfl, ?_⟩
          injection h with h
          rw [← h]
          rcases Nat.eq_zero_or_pos cfg.tailCache with h0 | h0
          · have h2 : st.indices.length = 0 := by
              rw [h1.perm.length_eq, h0]
              simp
            exact (show st.own.indices.length = 0 from h2) ▸ Nat.zero_le _
          · obtain ⟨st', slots', j1, j2⟩ := h1.push cfg.heap h0 (a.x, ())
            rw [tailPush_next cfg.heap side j1] at hr
            injection hr with hr
            rw [← hr]
            show st.indices.length ≤ st'.indices.length
            rw [h1.perm.length_eq, j2.perm.length_eq, List.length_range, List.length_range]
            simp only [List.length_append, List.length_singleton]
            omega
        | _ => cases h
      | _ => cases h
    | tailVariate v side => exact ⟨m, h, le_rfl⟩
    | tailWeights side => exact ⟨m, h, le_rfl⟩
    | rollingVariance =>
      cases c with
      | rollVar v => simp only [step] at h; split at h <;> cases h
      | _ => cases h
    | immediateRollingVariance =>
      cases c with
      | rollVar v => simp only [step] at h; split at h <;> cases h
      | _ => cases h
    | _ => first | (cases he; done) | (cases c <;> cases h)

theorem write_tailCount {cfg : Cfg K} (f : StdF) (env : Env StdF (Cell K)) (a : FArgs K) (t : Tag StdF) (c : Cell K) :
    (write cfg f env a t c).tailCount = c.tailCount := by
  unfold write
  split
  · split <;> rfl
  · split <;> rfl
  · rfl

/-- The tails of a later set hold at least as many samples. -/
def Grown (env env' : Env StdF (Cell K)) : Prop :=
  ∀ k m, (env' k).bind (fun c => c.2.tailCount) = some m → ∃ n, (env k).bind (fun c => c.2.tailCount) = some n ∧ n ≤ m

theorem Grown.refl (env : Env StdF (Cell K)) : Grown env env := fun _ m h => ⟨m, h, le_rfl⟩

theorem Grown.trans {env env' env'' : Env StdF (Cell K)} (h : Grown env env') (h' : Grown env' env'') :
    Grown env env'' := by
  intro k m hm
  obtain ⟨n, h1, h2⟩ := h' k m hm
  obtain ⟨n', h3, h4⟩ := h k n h1
  exact ⟨n', h3, h4.trans h2⟩

theorem visit_tailCount {cfg : Cfg K} {S : List (Tag StdF)} {refs : StdF → ℕ} {a : FArgs K} {env : Env StdF (Cell K)}
    (hs : SmallSet cfg S env) {t : Tag StdF} (hm : t ∈ S) :
    Grown env (stdLib.visitX (fullImpl cfg) S refs a env t) := by
  intro k m h
  unfold Lib.visitX at h
  split at h
  · exact ⟨m, h, le_rfl⟩
  · dsimp only at h
    split at h
    · rename_i hk
      obtain ⟨c0, h0⟩ := hs.total t hm
      have h' : (step cfg env a t.base (env (stdLib.tkey t))).tailCount = some m := h
      rw [h0] at h'
      rw [hk, h0]
      exact step_tailCount env a (hs.small _ _ _ h0) h'
    · split at h
      · rcases he : env k with _ | ⟨f', c'⟩
        · rw [he] at h; cases h
        · rw [he] at h
          have h' : (write cfg t.base env a _ c').tailCount = some m := h
          rw [write_tailCount] at h'
          exact ⟨m, h', le_rfl⟩
      · exact ⟨m, h, le_rfl⟩

theorem push_tailCount {cfg : Cfg K} {S : List (Tag StdF)} (hnd : (S.map stdLib.tkey).Nodup) {refs : StdF → ℕ}
    {a : FArgs K} (S' : List (Tag StdF)) (hS : ∀ t ∈ S', t ∈ S) {env : Env StdF (Cell K)} (hs : SmallSet cfg S env) :
    Grown env (stdLib.pushX (fullImpl cfg) S refs S' env a) := by
  induction S' generalizing env with
  | nil => exact Grown.refl env
  | cons t S' ih =>
    have hm := hS t (by simp)
    rw [Lib.pushX, List.foldl_cons, ← Lib.pushX]
    exact (visit_tailCount hs hm).trans (ih (fun t ht => hS t (by simp [ht]))
      ⟨dom_visit hs.dom hm, total_visit hnd hs.total hm, smallEnv_visit hnd hs.dom hs.total hs.small hm⟩)

theorem settle_tailCount {cfg : Cfg K} (env : Env StdF (Cell K)) (rd : StdF → Out K) {f : StdF} {c : Cell K}
    (hs : Small cfg f c) {m : ℕ} (h : (settle cfg env rd f c).tailCount = some m) :
    ∃ n, c.tailCount = some n ∧ n ≤ m := by
  unfold settle at h
  dsimp only at h
  split at h
  case h_9 side s =>
    obtain ⟨ps, st, slots, h1, rfl⟩ := hs
    refine ⟨_, rfl, ?_⟩
    injection h with h
    rw [← h]
    have e : (tailSort cfg.heap side (st.own.join ([] : List Unit))).indices = (tailSort cfg.heap side st).indices :=
      congrArg TailOwn.indices (tailSort_own cfg.heap side st ([] : List Unit))
    rw [e, (h1.sort cfg.heap).1.perm.length_eq]
    exact h1.perm.length_eq.le
  all_goals
    repeat' split at h
    all_goals exact ⟨m, h, le_rfl⟩

theorem extractN_tailCount {cfg : Cfg K} {S : List (Tag StdF)} (p : K) (m : ℕ) : ∀ k env, SmallSet cfg S env →
    Grown env (extractN cfg p m k env).1 := by
  induction m with
  | zero => exact fun k env h => Grown.refl env
  | succ m ih =>
    intro k env h
    rw [extractN]
    rcases he : env k with _ | ⟨f, c⟩
    · exact Grown.refl env
    · have : ∀ (ks : List StdF), ∀ env, SmallSet cfg S env → Grown env (readAll (extractN cfg p m) ks env).1 := by
        intro ks
        induction ks with
        | nil => exact fun env _ => Grown.refl env
        | cons x ks ihk =>
          intro env h
          exact (ih x env h).trans (ihk _ (extractN_small p m x env h).1)
      intro k' n hn
      dsimp only at hn
      split at hn
      · rename_i hk
        rw [hk, he]
        exact settle_tailCount _ _ (h.small _ _ _ he) hn
      · exact this _ env h k' n hn

theorem getElem?_filterMap_length {β : Type} {slots : List β} {l : List ℕ} (h : ∀ i ∈ l, i < slots.length) :
    (l.filterMap (fun i => slots[i]?)).length = l.length := by
  induction l with
  | nil => rfl
  | cons i l ih =>
    rw [List.filterMap_cons, List.getElem?_eq_getElem (h i (by simp))]
    simp [ih fun j hj => h j (by simp [hj])]

/-- What is read through a range over the first `n` indices of the tail. -/
theorem tailShown_spec {side : Side} {k : ℕ} {ps : List (K × Unit)} {st : TailSt K Unit} {slots : List (K × Unit)}
    (h : TailSt.Inv side k ps st slots) (H : HeapImpl ℕ) {ys : List K}
    (hy : tailResult H side (st.own.join ([] : List Unit)) = .val ys) (n : ℕ) :
    ∃ zs, readSlots st.samples (st.indices.take n).reverse = .val zs ∧ zs.length = min n st.indices.length ∧
      zs.Subperm ys ∧ (st.indices.length ≤ n → zs.Perm ys) := by
  have hlt : ∀ i ∈ st.indices, i < st.samples.length := by
    intro i hi
    rw [h.samples, List.length_map]
    exact h.mem_lt hi
  have hperm : (tailSort H side st).indices.Perm st.indices := (h.sort H).1.perm.trans h.perm.symm
  have hsamples : (tailSort H side st).samples = st.samples := (h.sort H).1.samples.trans (by
    have := (h.sort H).1.samples
    rw [h.samples])
  rw [tailResult_own] at hy
  unfold tailResult at hy
  dsimp only at hy
  rw [hsamples, readSlots_eq _ _ (fun i hi => hlt i (hperm.mem_iff.1 (List.mem_reverse.1 hi)))] at hy
  injection hy with hy
  have hfull : (st.indices.filterMap fun i => st.samples[i]?).Perm ys := by
    rw [← hy]
    exact (((List.reverse_perm _).trans hperm).symm.filterMap _)
  have hz : ((st.indices.take n).reverse.filterMap fun i => st.samples[i]?).Perm
      ((st.indices.take n).filterMap fun i => st.samples[i]?) := (List.reverse_perm _).filterMap _
  refine ⟨_, readSlots_eq _ _ (fun i hi => hlt i (List.mem_of_mem_take (List.mem_reverse.1 hi))), ?_, ?_, ?_⟩
  · rw [hz.length_eq, getElem?_filterMap_length, List.length_take]
    exact fun i hi => hlt i (List.mem_of_mem_take hi)
  · exact (hz.subperm.trans ((List.take_sublist n _).filterMap _).subperm).trans hfull.subperm
  · intro hn
    rw [List.take_of_length_le hn] at hz ⊢
    exact hz.trans hfull

/-- The tail of a set, and what extraction does to it. -/
theorem extract_tail {cfg : Cfg K} {S : List (Tag StdF)} {p : K} {env : Env StdF (Cell K)} (h : SmallSet cfg S env)
    {xs : List K} (hx : (extract cfg p abstractTail env).2 = .list (.val xs)) :
    ∃ (side : Side) (ps : List (K × Unit)) (st : TailSt K Unit) (slots : List (K × Unit)),
      TailSt.Inv side cfg.tailCache ps st slots ∧ env abstractTail = some (.tail side, .tail (.val st.own)) ∧
      tailResult cfg.heap side (st.own.join ([] : List Unit)) = .val xs ∧
      (extract cfg p abstractTail env).1 abstractTail = some (.tail side, .tail (.val (tailSort cfg.heap side st).own)) := by
  unfold extract at hx ⊢
  rw [extractN] at hx ⊢
  rcases he : env abstractTail with _ | ⟨f, c⟩
  · rw [he] at hx; cases hx
  · rw [he] at hx
    obtain ⟨t, -, h1, h2⟩ := h.dom _ _ _ he
    have hf : ∃ side, f = .tail side := by
      have hk : key f = abstractTail := by rw [← h2]; exact h1
      cases f with
      | abstractTail => cases c <;> cases hx
      | tail side => exact ⟨side, rfl⟩
      | _ => cases hk
    obtain ⟨side, rfl⟩ := hf
    dsimp only at hx ⊢
    have hs := h.small _ _ _ he
    cases c with
    | tail s =>
      cases s with
      | val s =>
        obtain ⟨ps, st, slots, j1, rfl⟩ := hs
        refine ⟨side, ps, st, slots, j1, rfl, ?_, ?_⟩
        · injection hx with hx
        · rw [if_pos rfl, ← tailSort_own cfg.heap side st ([] : List Unit)]
          rfl
      | _ => cases hx
    | _ => cases hx

end
end Cell

section
variable {K : Type} [Field K] [LinearOrder K] [IsStrictOrderedRing K] [FloorRing K]

theorem anyRun_snoc {cfg : Cfg K} {w : Bool} {ord : List (Tag StdF) → List (Tag StdF)} {req : List (Tag StdF)}
    {ops : List (AnyOp K)} {op : AnyOp K} {s' : SetState StdF (Cell K)}
    (h : anyRun cfg w ord req (ops ++ [op]) = .val s') :
    ∃ s, anyRun cfg w ord req ops = .val s ∧ anyStep cfg (stdLib.accumulators w ord req) s op = .val s' := by
  have key : ∀ (ops : List (AnyOp K)) (s0 : SetState StdF (Cell K)),
      (ops ++ [op]).foldlM (anyStep cfg (stdLib.accumulators w ord req)) s0 = .val s' →
      ∃ s, ops.foldlM (anyStep cfg (stdLib.accumulators w ord req)) s0 = .val s ∧
        anyStep cfg (stdLib.accumulators w ord req) s op = .val s' := by
    intro ops
    induction ops with
    | nil =>
      intro s0 h
      rw [List.nil_append, List.foldlM_cons] at h
      obtain ⟨s2, h3, h4⟩ := Res.bind_eq_val.1 h
      injection h4 with h4
      exact ⟨s0, rfl, by rw [h3, h4]⟩
    | cons o ops ih =>
      intro s0 h
      rw [List.cons_append, List.foldlM_cons] at h
      obtain ⟨s2, h3, h4⟩ := Res.bind_eq_val.1 h
      obtain ⟨s, h5, h6⟩ := ih s2 h4
      exact ⟨s, by rw [List.foldlM_cons, h3]; exact h5, h6⟩
  exact key ops _ h

theorem anyStep_extract {cfg : Cfg K} {S : List (Tag StdF)} {s s' : SetState StdF (Cell K)} {k : StdF} {p : K}
    (h : anyStep cfg S s (.extract k p) = .val s') : s'.env = (Cell.extract cfg p k s.env).1 := by
  obtain ⟨env, he, hs⟩ := Res.bind_eq_val.1 h
  injection hs with hs
  subst hs
  simp only [Cell.queryStep] at he
  split at he
  · cases he
  · injection he with he
    exact he.symm

variable (cfg : Cfg K) (w : Bool) {ord : List (Tag StdF) → List (Tag StdF)} (hord : ∀ l, (ord l).Perm l)
  (req : List (Tag StdF)) {ops : List (AnyOp K)} {s : SetState StdF (Cell K)} (h : anyRun cfg w ord req ops = .val s)
  {k : StdF} {p : K}
include hord h

/-- **C80**: a range into a histogram, whenever it was obtained, shows what the last extraction of the feature returned ... -/
theorem C80_shows {l : List (K × Res K)} (hx : (Cell.extract cfg p k s.env).2 = .hist (.val l))
    {s' : SetState StdF (Cell K)} (h' : anyRun cfg w ord req (ops ++ [.extract k p]) = .val s') :
    (s'.env k).bind (fun c => c.2.shown) = some l := by
  obtain ⟨s1, h1, h2⟩ := anyRun_snoc h'
  rw [h] at h1
  injection h1 with h1
  subst h1
  rw [anyStep_extract h2]
  exact Cell.extract_shown hx

/-- **C80**: ... and goes on to show it whatever is pushed or dropped afterwards, until the feature itself or the median,
which may read it, is extracted. -/
theorem C80_kept {l : List (K × Res K)} (hx : (Cell.extract cfg p k s.env).2 = .hist (.val l)) {later : List (AnyOp K)}
    (hl : ∀ k' p', .extract k' p' ∈ later → k' ≠ k ∧ k' ≠ median) {s' : SetState StdF (Cell K)}
    (h' : anyRun cfg w ord req (ops ++ .extract k p :: later) = .val s') {l' : List (K × Res K)}
    (hr : (s'.env k).bind (fun c => c.2.shown) = some l') : l' = l := by
  have hnd := C42_unique stdLib_ok w hord req
  have hk := Cell.extract_hist_key (anyRun_small cfg w hord req h).dom hx
  induction later using List.reverseRecOn generalizing s' with
  | nil =>
    rw [C80_shows cfg w hord req h hx h'] at hr
    injection hr with hr
    exact hr.symm
  | append_singleton later op ih =>
    rw [← List.cons_append, ← List.append_assoc] at h'
    obtain ⟨s1, h1, h2⟩ := anyRun_snoc h'
    have hs1 := anyRun_small cfg w hord req h1
    refine ih (fun k' p' hm => hl k' p' (by simp [hm])) h1 ?_
    cases op with
    | push a =>
      injection h2 with h2
      subst h2
      exact Cell.push_shown hnd _ (fun t ht => ht) hs1.total hr
    | drop f =>
      obtain ⟨c, -, h2⟩ := Cell.bind_val_of (h2 : (stdLib.dropFeature _ s1.refs f).bind _ = _)
      injection h2 with h2
      subst h2
      exact hr
    | extract k' p' =>
      obtain ⟨e1, e2⟩ := hl k' p' (by simp)
      rw [anyStep_extract h2, Cell.extract, Cell.extractN_shown p' hk _ k' _ hs1 e1 e2] at hr
      exact hr

/-- **C80**: a range returned by `tail` shows the tail when it is returned ... -/
theorem C80_tail_now {xs : List K} (hx : (Cell.extract cfg p abstractTail s.env).2 = .list (.val xs))
    {s' : SetState StdF (Cell K)} (h' : anyRun cfg w ord req (ops ++ [.extract abstractTail p]) = .val s') :
    (s'.env abstractTail).bind (fun c => c.2.tailShown xs.length) = some (.val xs) := by
  obtain ⟨s1, h1, h2⟩ := anyRun_snoc h'
  rw [h] at h1
  injection h1 with h1
  subst h1
  obtain ⟨side, ps, st, slots, j1, j2, j3, j4⟩ := Cell.extract_tail (anyRun_small cfg w hord req h) hx
  rw [anyStep_extract h2, j4]
  rw [tailResult_own] at j3
  unfold tailResult at j3
  dsimp only at j3
  have hlen : (tailSort cfg.heap side st).indices.length = xs.length := by
    have := j3
    rw [readSlots_eq _ _ (fun i hi => ?_)] at this
    · injection this with this
      rw [← this, Cell.getElem?_filterMap_length, List.length_reverse]
      intro i hi
      rw [(j1.sort cfg.heap).1.samples, List.length_map]
      exact (j1.sort cfg.heap).1.mem_lt (List.mem_reverse.1 hi)
    · rw [(j1.sort cfg.heap).1.samples, List.length_map]
      exact (j1.sort cfg.heap).1.mem_lt (List.mem_reverse.1 hi)
  rw [← j3]
  show some (readSlots (tailSort cfg.heap side st).samples ((tailSort cfg.heap side st).indices.take xs.length).reverse) = _
  rw [List.take_of_length_le hlen.le]

/-- **C80**: ... and later as many samples of the tail of that time, in no particular order; all of them, if the tail was
full. -/
theorem C80_tail_later {xs : List K} (hx : (Cell.extract cfg p abstractTail s.env).2 = .list (.val xs))
    {later : List (AnyOp K)} {s' : SetState StdF (Cell K)}
    (h' : anyRun cfg w ord req (ops ++ .extract abstractTail p :: later) = .val s') {q : K} {ys : List K}
    (hy : (Cell.extract cfg q abstractTail s'.env).2 = .list (.val ys)) :
    ∃ zs, (s'.env abstractTail).bind (fun c => c.2.tailShown xs.length) = some (.val zs) ∧ zs.length = xs.length ∧
      zs.Subperm ys ∧ (xs.length = cfg.tailCache → zs.Perm ys) := by
  have hnd := C42_unique stdLib_ok w hord req
  have hg : ∀ {s' : SetState StdF (Cell K)}, anyRun cfg w ord req (ops ++ .extract abstractTail p :: later) = .val s' →
      Cell.Grown s.env s'.env := by
    clear h' hy
    induction later using List.reverseRecOn with
    | nil =>
      intro s' h'
      obtain ⟨s1, h1, h2⟩ := anyRun_snoc h'
      rw [h] at h1
      injection h1 with h1
      subst h1
      rw [anyStep_extract h2]
      exact Cell.extractN_tailCount p _ _ _ (anyRun_small cfg w hord req h)
    | append_singleton later op ih =>
      intro s' h'
      rw [← List.cons_append, ← List.append_assoc] at h'
      obtain ⟨s1, h1, h2⟩ := anyRun_snoc h'
      refine (ih h1).trans ?_
      have hs1 := anyRun_small cfg w hord req h1
      cases op with
      | push a =>
        injection h2 with h2
        subst h2
        exact Cell.push_tailCount hnd _ (fun t ht => ht) hs1
      | drop f =>
        obtain ⟨c, -, h2⟩ := Cell.bind_val_of (h2 : (stdLib.dropFeature _ s1.refs f).bind _ = _)
        injection h2 with h2
        subst h2
        exact Cell.Grown.refl _
      | extract k' p' =>
        rw [anyStep_extract h2]
        exact Cell.extractN_tailCount p' _ _ _ hs1
  obtain ⟨side, ps, st, slots, j1, j2, j3, -⟩ := Cell.extract_tail (anyRun_small cfg w hord req h) hx
  obtain ⟨side', ps', st', slots', i1, i2, i3, -⟩ := Cell.extract_tail (anyRun_small cfg w hord req h') hy
  obtain ⟨n, hn1, hn2⟩ := hg h' abstractTail st'.indices.length (by rw [i2]; rfl)
  rw [j2] at hn1
  have hn1' : st.indices.length = n := by injection hn1
  have hxs : xs.length = st.indices.length := by
    obtain ⟨zs, -, e1, -, e2⟩ := Cell.tailShown_spec j1 cfg.heap j3 st.indices.length
    rw [← (e2 le_rfl).length_eq, e1, min_self]
  obtain ⟨zs, z1, z2, z3, z4⟩ := Cell.tailShown_spec i1 cfg.heap i3 xs.length
  refine ⟨zs, ?_, ?_, z3, fun hfull => z4 ?_⟩
  · rw [i2]
    exact congrArg some z1
  · rw [z2]
    omega
  · rw [hfull, i1.perm.length_eq, List.length_range]
    omega

/-- **C80**: a range returned by `extended_p_square`, whenever it was obtained, shows what an extraction would return
now. -/
theorem C80_extended {ys : List K} (hy : (Cell.extract cfg p extendedPSquare s.env).2 = .list (.val ys)) :
    (s.env extendedPSquare).bind (fun c => c.2.extShown cfg.probs.length) = some (.val ys) := by
  have hd := (anyRun_small cfg w hord req h).dom
  unfold Cell.extract at hy
  rw [Cell.extractN] at hy
  rcases he : s.env extendedPSquare with _ | ⟨f, c⟩
  · rw [he] at hy; cases hy
  · rw [he] at hy
    obtain ⟨t, -, h1, h2⟩ := hd _ _ _ he
    have hk : key f = extendedPSquare := by rw [← h2]; exact h1
    dsimp only at hy
    cases f with
    | extendedPSquare =>
      cases c with
      | psq r =>
        injection hy with hy
        obtain ⟨r, rfl, hy'⟩ := Cell.bind_val_of hy
        exact congrArg some hy'
      | _ => cases hy
    | weightedExtendedPSquare =>
      cases c with
      | wpsq r =>
        injection hy with hy
        obtain ⟨r, rfl, hy'⟩ := Cell.bind_val_of hy
        exact congrArg some hy'
      | _ => cases hy
    | _ => cases hk

end

/-! ## Ranges that change under the program's hands -/

/-- A sample. -/
def viewPush (x : ℚ) : AnyOp ℚ := .push ⟨⟨x, 1, fun _ => 0⟩, fun _ => []⟩

def viewCfg : Cfg ℚ := { exampleCfg with densCache := 2, tailCache := 3, probs := [1 / 2], cells := 2 }

/-- What the program reads through a range into the histogram at the end. -/
def viewAt (req : List (Tag StdF)) (ops : List (AnyOp ℚ)) : Res (Option (List (ℚ × Res ℚ))) := do
  let s ← anyRun viewCfg false id req ops
  return (s.env density).bind fun c => c.2.shown

/-- **C80**: four samples; the histogram is extracted after two of them.  The range keeps showing the histogram of two
samples, until the second extraction replaces it under the first range; so does extraction of a median that reads the
histogram. -/
theorem C80_overwritten :
    viewAt [tg density] [viewPush 0, viewPush 4, .extract density 0, viewPush 1, viewPush 3, .extract StdF.count 0] =
      .val (some [(-2, .val 0), (0, .val (1 / 2)), (2, .val 0), (4, .val (1 / 2))]) ∧
    viewAt [tg density] [viewPush 0, viewPush 4, .extract density 0, viewPush 1, viewPush 3, .extract density 0] =
      .val (some [(-2, .val 0), (0, .val (1 / 2)), (2, .val (1 / 4)), (4, .val (1 / 4))]) ∧
    viewAt [tg density, tg withDensityMedian]
      [viewPush 0, viewPush 4, .extract density 0, viewPush 1, viewPush 3, .extract median 0] =
      .val (some [(-2, .val 0), (0, .val (1 / 2)), (2, .val (1 / 4)), (4, .val (1 / 4))]) := by
  decide +kernel

/-- **C80**: the tail is not full when the program asks for it and gets 3, 2.  After one more push the same range shows 2, 1,
although 3 is still the largest sample. -/
theorem C80_tail_changes :
    (do
      let s ← anyRun viewCfg false id [tg (.tail .right)] [viewPush 3, viewPush 2, .extract abstractTail 0]
      return (s.env abstractTail).bind fun c => c.2.tailShown 2) = Res.val (some (.val [3, 2])) ∧
    (do
      let s ← anyRun viewCfg false id [tg (.tail .right)] [viewPush 3, viewPush 2, .extract abstractTail 0, viewPush 1]
      return (s.env abstractTail).bind fun c => c.2.tailShown 2) = Res.val (some (.val [2, 1])) := by
  decide +kernel

/-- **C80**: the estimates of `extended_p_square` move with every push. -/
theorem C80_extended_changes :
    (do
      let s ← anyRun viewCfg false id [tg extendedPSquare]
        [viewPush 1, viewPush 2, viewPush 3, viewPush 4, viewPush 5, viewPush 6, .extract extendedPSquare 0]
      return (s.env extendedPSquare).bind fun c => c.2.extShown 1) = Res.val (some (.val [3])) ∧
    (do
      let s ← anyRun viewCfg false id [tg extendedPSquare]
        [viewPush 1, viewPush 2, viewPush 3, viewPush 4, viewPush 5, viewPush 6, .extract extendedPSquare 0, viewPush 10,
          viewPush 10, viewPush 12, viewPush 4, viewPush 16]
      return (s.env extendedPSquare).bind fun c => c.2.extShown 1) = Res.val (some (.val [589 / 108])) := by
  decide +kernel

end Acc
