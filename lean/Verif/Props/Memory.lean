import Verif.Proofs.QueryRun
import Verif.Proofs.WPSquare
import Verif.Props.SafeSet

/-!
# C77: a set needs the same memory however many samples are pushed

The number of elements in the containers of every accumulator is bounded by a number computed from the arguments of the
constructor, for every history of pushes, extractions and drops.
-/

set_option linter.unusedSectionVars false

namespace Acc

open StdF

/-! ## The number of elements in the containers -/

namespace Cell

/-- The number of elements of all containers among the members of an accumulator.  After undefined behaviour nothing
is counted.  An element may be a pair; a vector passed as covariate is one element.  Not counted, because they are no
state of the model, are the arrays whose size is fixed at construction and whose elements are constant or overwritten
at every push (probabilities, extended_p_square.hpp:254 and extended_p_square_quantile.hpp:202; position increments,
extended_p_square.hpp:258; desired positions of the weighted accumulators, weighted_extended_p_square.hpp:270) and the
vector in which a variate mean of the tail returns its result (tail_variate_means.hpp:158), which is as long as one
covariate. -/
def stored {K : Type} : Cell K → ℕ
  | window b => b.elems.length
  | dens (.val s) => s.cache.length + s.bins.length + s.pos.length + s.hist.length
  | wdens (.val s) => s.cache.length + s.bins.length + s.pos.length + s.hist.length
  | psq (.val s) => s.heights.length + s.pos.length + s.des.length
  | wpsq (.val s) => s.heights.length + s.pos.length
  | cumul (.val s) => s.m.heights.length + s.m.pos.length + s.m.des.length + s.hist.length
  | wcumul (.val s) => s.m.heights.length + s.m.pos.length + s.hist.length
  | tail (.val s) => s.indices.length + s.samples.length
  | variates (.val l) => l.length
  | weights (.val l) => l.length
  | _ => 0

/-- The number of elements that the accumulator of a feature is entitled to. -/
def capacity {K : Type} (cfg : Cfg K) : StdF → ℕ
  | .rollingWindowPlus1 => cfg.window + 1
  | .density | .weightedDensity => cfg.densCache + 3 * (cfg.numBins + 2)
  | .pSquareQuantile | .pSquareQuantileForMedian => 15
  | .weightedPSquareQuantile | .weightedPSquareQuantileForMedian => 10
  | .pSquareCumul => 4 * (cfg.cells + 1)
  | .weightedPSquareCumul => 3 * (cfg.cells + 1)
  | .extendedPSquare => 3 * (2 * cfg.probs.length + 3)
  | .weightedExtendedPSquare => 2 * (2 * cfg.probs.length + 3)
  | .tail _ => 2 * cfg.tailCache
  | .tailVariate _ _ | .tailWeights _ => cfg.tailCache
  | _ => 0

end Cell

/-- What a program does with a set: push, extract a feature, drop a feature. -/
inductive AnyOp (K : Type) where
  | push (a : FArgs K)
  | extract (k : StdF) (p : K)
  | drop (f : Tag StdF)

section
variable {K : Type} [Field K] [LinearOrder K] [FloorRing K]

/-- One operation of such a program. -/
def anyStep (cfg : Cfg K) (S : List (Tag StdF)) (s : SetState StdF (Cell K)) : AnyOp K → Res (SetState StdF (Cell K))
  | .push a => stdLib.stepX (fullImpl cfg) S s (.push a)
  | .drop f => stdLib.stepX (fullImpl cfg) S s (.drop f)
  | .extract k p => do
    let env ← Cell.queryStep cfg S s.refs s.env (.extract k p)
    return { s with env := env }

/-- A set of the features `req` after a history of pushes, extractions and drops. -/
def anyRun (cfg : Cfg K) (w : Bool) (ord : List (Tag StdF) → List (Tag StdF)) (req : List (Tag StdF))
    (ops : List (AnyOp K)) : Res (SetState StdF (Cell K)) :=
  let S := stdLib.accumulators w ord req
  ops.foldlM (anyStep cfg S) (stdLib.construct (fullImpl cfg).toImpl S req)

end

/-! ## Containers keep their sizes -/

section sizes

theorem setAt_length {α : Type} {l l' : List α} {i : ℕ} {a : α} (h : setAt l i a = .val l') : l'.length = l.length := by
  unfold setAt at h
  split at h
  · injection h with h; rw [← h]; simp
  · cases h

theorem modifyAt_length {α : Type} {l l' : List α} {i : ℕ} {f : α → α} (h : modifyAt l i f = .val l') :
    l'.length = l.length := by
  unfold modifyAt at h
  obtain ⟨a, -, h⟩ := Res.bind_eq_val.1 h
  exact setAt_length h

theorem mapRes_length {α β : Type} {f : α → Res β} {l : List α} {l' : List β} (h : mapRes f l = .val l') :
    l'.length = l.length := by
  induction l generalizing l' with
  | nil => injection h with h; rw [← h]; rfl
  | cons a l ih =>
    obtain ⟨b, -, h⟩ := Res.bind_eq_val.1 h
    obtain ⟨bs, h1, h⟩ := Res.bind_eq_val.1 h
    injection h with h
    rw [← h, List.length_cons, List.length_cons, ih h1]

theorem foldRes_inv {S α : Type} {f : S → α → Res S} {P : S → Prop} (hf : ∀ s a s', P s → f s a = .val s' → P s')
    {s s' : S} {l : List α} (hs : P s) (h : foldRes f s l = .val s') : P s' := by
  induction l generalizing s with
  | nil => injection h with h; rw [← h]; exact hs
  | cons a l ih =>
    obtain ⟨t, h1, h⟩ := Res.bind_eq_val.1 h
    exact ih (hf _ _ _ hs h1) h

variable {K : Type} [Field K] [LinearOrder K]

theorem binAdd_length {B : ℕ} {pos bins bins' : List K} {x inc : K} (h : binAdd B pos bins x inc = .val bins') :
    bins'.length = bins.length := by
  unfold binAdd at h
  obtain ⟨a, -, h⟩ := Res.bind_eq_val.1 h
  split at h
  · exact modifyAt_length h
  · obtain ⟨b, -, h⟩ := Res.bind_eq_val.1 h
    split at h
    · exact modifyAt_length h
    · obtain ⟨d, -, h⟩ := Res.bind_eq_val.1 h
      split at h
      · cases h
      · exact modifyAt_length h

/-- The sizes of the containers of a density. -/
def DensitySt.Sized (c B : ℕ) (s : DensitySt K) : Prop :=
  s.numBins = B ∧ s.cache.length = c ∧ s.bins.length = B + 2 ∧ s.pos.length = B + 2 ∧ s.hist.length = B + 2

/-- The sizes of the containers of a weighted density. -/
def WDensitySt.Sized (c B : ℕ) (s : WDensitySt K) : Prop :=
  s.numBins = B ∧ s.cache.length = c ∧ s.bins.length = B + 2 ∧ s.pos.length = B + 2 ∧ s.hist.length = B + 2

theorem densityStep_sized {c B n : ℕ} {mn mx : K} {s s' : DensitySt K} {x : K} (hs : s.Sized c B)
    (h : densityStep n mn mx s x = .val s') : s'.Sized c B := by
  obtain ⟨h1, h2, h3, h4, h5⟩ := hs
  unfold densityStep at h
  have key : ∀ cache : List K, cache.length = c →
      (let s := { s with cnt := n, mn := mn, mx := mx, cache := cache, dirty := true }
      if n = s.cacheSize then do
        let minimum ← fdiv mn 1
        let maximum ← fdiv mx 1
        let binSize ← fdiv (maximum - minimum) (s.numBins : K)
        let pos := binPositions s.numBins minimum binSize
        let bins ← foldRes (fun bins y => binAdd s.numBins pos bins y 1) s.bins cache
        pure { s with pos := pos, bins := bins }
      else if s.cacheSize < n then do
        let bins ← binAdd s.numBins s.pos s.bins x 1
        pure { s with bins := bins }
      else .val s : Res (DensitySt K)) = .val s' → s'.Sized c B := by
    intro cache hc h
    dsimp only at h
    split at h
    · obtain ⟨a, -, h⟩ := Res.bind_eq_val.1 h
      obtain ⟨b, -, h⟩ := Res.bind_eq_val.1 h
      obtain ⟨d, -, h⟩ := Res.bind_eq_val.1 h
      obtain ⟨e, he, h⟩ := Res.bind_eq_val.1 h
      injection h with h
      rw [← h]
      refine ⟨h1, hc, ?_, by simp [binPositions, h1], h5⟩
      exact foldRes_inv (P := fun l => l.length = B + 2) (fun l y l' hl hy => (binAdd_length hy).trans hl) h3 he
    · split at h
      · obtain ⟨a, ha, h⟩ := Res.bind_eq_val.1 h
        injection h with h
        rw [← h]
        exact ⟨h1, hc, (binAdd_length ha).trans h3, h4, h5⟩
      · injection h with h
        rw [← h]
        exact ⟨h1, hc, h3, h4, h5⟩
  split at h
  · obtain ⟨cache, hc, h⟩ := Res.bind_eq_val.1 h
    exact key cache ((setAt_length hc).trans h2) h
  · exact key s.cache h2 h

theorem wdensityStep_sized {c B n : ℕ} {w mn mx : K} {s s' : WDensitySt K} {x : K × K} (hs : s.Sized c B)
    (h : wdensityStep n w mn mx s x = .val s') : s'.Sized c B := by
  obtain ⟨h1, h2, h3, h4, h5⟩ := hs
  unfold wdensityStep at h
  have key : ∀ cache : List (K × K), cache.length = c →
      (let s := { s with cnt := n, wsum := w, mn := mn, mx := mx, cache := cache, dirty := true }
      if n = s.cacheSize then do
        let minimum ← fdiv mn 1
        let maximum ← fdiv mx 1
        let binSize ← fdiv (maximum - minimum) (s.numBins : K)
        let pos := binPositions s.numBins minimum binSize
        let bins ← foldRes (fun bins q => binAdd s.numBins pos bins q.1 q.2) s.bins cache
        pure { s with pos := pos, bins := bins }
      else if s.cacheSize < n then do
        let bins ← binAdd s.numBins s.pos s.bins x.1 x.2
        pure { s with bins := bins }
      else .val s : Res (WDensitySt K)) = .val s' → s'.Sized c B := by
    intro cache hc h
    dsimp only at h
    split at h
    · obtain ⟨a, -, h⟩ := Res.bind_eq_val.1 h
      obtain ⟨b, -, h⟩ := Res.bind_eq_val.1 h
      obtain ⟨d, -, h⟩ := Res.bind_eq_val.1 h
      obtain ⟨e, he, h⟩ := Res.bind_eq_val.1 h
      injection h with h
      rw [← h]
      refine ⟨h1, hc, ?_, by simp [binPositions, h1], h5⟩
      exact foldRes_inv (P := fun l => l.length = B + 2) (fun l y l' hl hy => (binAdd_length hy).trans hl) h3 he
    · split at h
      · obtain ⟨a, ha, h⟩ := Res.bind_eq_val.1 h
        injection h with h
        rw [← h]
        exact ⟨h1, hc, (binAdd_length ha).trans h3, h4, h5⟩
      · injection h with h
        rw [← h]
        exact ⟨h1, hc, h3, h4, h5⟩
  split at h
  · obtain ⟨cache, hc, h⟩ := Res.bind_eq_val.1 h
    exact key cache ((setAt_length hc).trans h2) h
  · exact key s.cache h2 h

theorem densityQuery_sized {c B : ℕ} {s : DensitySt K} (hs : s.Sized c B) {r : DensitySt K × List (K × Res K)}
    (h : densityQuery s = .val r) : r.1.Sized c B := by
  obtain ⟨h1, h2, h3, h4, h5⟩ := hs
  unfold densityQuery at h
  split at h
  · obtain ⟨l, hl, h⟩ := Res.bind_eq_val.1 h
    injection h with h
    rw [← h]
    exact ⟨h1, h2, h3, h4, by have := mapRes_length hl; rw [List.length_range, h1] at this; exact this⟩
  · injection h with h
    rw [← h]
    exact ⟨h1, h2, h3, h4, h5⟩

theorem wdensityQuery_sized {c B : ℕ} {s : WDensitySt K} (hs : s.Sized c B) {r : WDensitySt K × List (K × Res K)}
    (h : wdensityQuery s = .val r) : r.1.Sized c B := by
  obtain ⟨h1, h2, h3, h4, h5⟩ := hs
  unfold wdensityQuery at h
  split at h
  · obtain ⟨l, hl, h⟩ := Res.bind_eq_val.1 h
    injection h with h
    rw [← h]
    exact ⟨h1, h2, h3, h4, by have := mapRes_length hl; rw [List.length_range, h1] at this; exact this⟩
  · injection h with h
    rw [← h]
    exact ⟨h1, h2, h3, h4, h5⟩

theorem psqCell_length {h : List K} {x : K} {r : List K × ℕ × Bool} (hr : psqCell h x = .val r) :
    r.1.length = h.length := by
  unfold psqCell at hr
  obtain ⟨a, -, hr⟩ := Res.bind_eq_val.1 hr
  split at hr
  · obtain ⟨b, hb, hr⟩ := Res.bind_eq_val.1 hr
    injection hr with hr
    rw [← hr]
    exact setAt_length hb
  · obtain ⟨b, -, hr⟩ := Res.bind_eq_val.1 hr
    split at hr
    · obtain ⟨d, hd, hr⟩ := Res.bind_eq_val.1 hr
      injection hr with hr
      rw [← hr]
      exact setAt_length hd
    · obtain ⟨d, -, hr⟩ := Res.bind_eq_val.1 hr
      injection hr with hr
      rw [← hr]

theorem psqAdjust1_length {des : List K} {s s' : List K × List K} {i : ℕ} (h : psqAdjust1 des s i = .val s') :
    s'.1.length = s.1.length ∧ s'.2.length = s.2.length := by
  unfold psqAdjust1 at h
  obtain ⟨a1, -, h⟩ := Res.bind_eq_val.1 h
  obtain ⟨a2, -, h⟩ := Res.bind_eq_val.1 h
  obtain ⟨a3, -, h⟩ := Res.bind_eq_val.1 h
  obtain ⟨a4, -, h⟩ := Res.bind_eq_val.1 h
  obtain ⟨a5, -, h⟩ := Res.bind_eq_val.1 h
  obtain ⟨a6, -, h⟩ := Res.bind_eq_val.1 h
  obtain ⟨a7, -, h⟩ := Res.bind_eq_val.1 h
  have fin : ∀ (r : Res K) (v : K), (do
      let q ← r
      let hs ← setAt s.1 i q
      let ns ← setAt s.2 i v
      pure (hs, ns)) = Res.val s' → s'.1.length = s.1.length ∧ s'.2.length = s.2.length := by
    intro r v h
    obtain ⟨q, -, h⟩ := Res.bind_eq_val.1 h
    obtain ⟨hs, h1, h⟩ := Res.bind_eq_val.1 h
    obtain ⟨ns, h2, h⟩ := Res.bind_eq_val.1 h
    injection h with h
    rw [← h]
    exact ⟨setAt_length h1, setAt_length h2⟩
  dsimp only at h
  split at h
  · split at h
    · split at h
      · exact fin _ _ h
      · exact fin _ _ h
    · exact fin _ _ h
  · injection h with h
    rw [← h]
    exact ⟨rfl, rfl⟩

theorem psqAdjust_length {des : List K} {s s' : List K × List K} (h : psqAdjust des s = .val s') :
    s'.1.length = s.1.length ∧ s'.2.length = s.2.length :=
  foldRes_inv (P := fun t : List K × List K => t.1.length = s.1.length ∧ t.2.length = s.2.length)
    (fun t i t' ht hi => by
      obtain ⟨h1, h2⟩ := psqAdjust1_length hi
      exact ⟨h1.trans ht.1, h2.trans ht.2⟩) ⟨rfl, rfl⟩ h

/-- The sizes of the containers of a P-square accumulator with `m` markers. -/
def PsqSt.Sized (m : ℕ) (s : PsqSt K) : Prop := s.heights.length = m ∧ s.pos.length = m ∧ s.des.length = m

/-- The sizes of the containers of a weighted P-square accumulator with `m` markers. -/
def WPsqSt.Sized (m : ℕ) (s : WPsqSt K) : Prop := s.heights.length = m ∧ s.pos.length = m

theorem psqStep_sized {m n : ℕ} {incr : List K} (hi : incr.length = m) {s s' : PsqSt K} {x : K} (hs : s.Sized m)
    (h : psqStep incr n s x = .val s') : s'.Sized m := by
  obtain ⟨h1, h2, h3⟩ := hs
  unfold psqStep at h
  split at h
  · obtain ⟨l, hl, h⟩ := Res.bind_eq_val.1 h
    injection h with h
    rw [← h]
    refine ⟨?_, h2, h3⟩
    have := (setAt_length hl).trans h1
    show (if n = incr.length then l.insertionSort (· ≤ ·) else l).length = m
    split
    · rw [List.length_insertionSort, this]
    · exact this
  · obtain ⟨c, hc, h⟩ := Res.bind_eq_val.1 h
    obtain ⟨r, hr, h⟩ := Res.bind_eq_val.1 h
    injection h with h
    rw [← h]
    obtain ⟨e1, e2⟩ := psqAdjust_length hr
    refine ⟨e1.trans ((psqCell_length hc).trans h1), e2.trans ?_, ?_⟩
    · simp [psqBump, h2]
    · simp [h3, hi]

theorem wpsqStep_sized [IsStrictOrderedRing K] {m summed n : ℕ} {W : K} {des : K → K → Res (List K)} {s s' : WPsqSt K} {x : K × K}
    (hs : s.Sized m) (h : wpsqStep m summed des n W s x = .val s') : s'.Sized m := by
  obtain ⟨h1, h2⟩ := hs
  unfold wpsqStep at h
  split at h
  · obtain ⟨l, hl, h⟩ := Res.bind_eq_val.1 h
    obtain ⟨l', hl', h⟩ := Res.bind_eq_val.1 h
    have e1 := (setAt_length hl).trans h1
    have e2 := (setAt_length hl').trans h2
    split at h
    · injection h with h
      rw [← h]
      have e3 : (selSort m (l.zip l')).length = m := by
        have := (selSort_spec m (l.zip l') (by simp [e1, e2])).1.length_eq
        simpa [e1, e2] using this
      refine ⟨by simp [e3], ?_⟩
      have e4 : ∀ (acc : K) (ws : List K), (prefixSums acc ws).length = ws.length := fun acc ws => by
        induction ws generalizing acc with
        | nil => rfl
        | cons w ws ih => simp [prefixSums, ih]
      simp only [List.length_append, e4, List.length_take, List.length_drop, List.length_map, e3]
      omega
    · injection h with h
      rw [← h]
      exact ⟨e1, e2⟩
  · obtain ⟨c, hc, h⟩ := Res.bind_eq_val.1 h
    have key : ∀ pos : List K, pos.length = m →
        ((do
          let pos' := psqBump c.2.1 x.2 pos
          let n0 ← getAt pos' 0
          let des ← des n0 W
          let r ← psqAdjust des (c.1, pos')
          pure ⟨n, W, r.1, r.2⟩ : Res (WPsqSt K)) = .val s') → s'.Sized m := by
      intro pos hp h
      obtain ⟨a, -, h⟩ := Res.bind_eq_val.1 h
      obtain ⟨b, -, h⟩ := Res.bind_eq_val.1 h
      obtain ⟨r, hr, h⟩ := Res.bind_eq_val.1 h
      injection h with h
      rw [← h]
      obtain ⟨e1, e2⟩ := psqAdjust_length hr
      exact ⟨e1.trans ((psqCell_length hc).trans h1), e2.trans (by simp [psqBump, hp])⟩
    split at h
    · obtain ⟨pos, hp, h⟩ := Res.bind_eq_val.1 h
      exact key pos ((setAt_length hp).trans h2) h
    · exact key s.pos h2 h

end sizes

/-! ## The accumulators of a set -/

namespace Cell

section
variable {K : Type} [Field K] [LinearOrder K] [IsStrictOrderedRing K] [FloorRing K]

/-- The sizes of the containers of the accumulator of a feature, and that the indices of the tail are a heap. -/
def Small (cfg : Cfg K) : StdF → Cell K → Prop
  | .rollingWindowPlus1, .window b => b.cap = cfg.window + 1 ∧ b.elems.length ≤ cfg.window + 1
  | .density, .dens (.val s) => s.Sized cfg.densCache cfg.numBins
  | .weightedDensity, .wdens (.val s) => s.Sized cfg.densCache cfg.numBins
  | .pSquareQuantile, .psq (.val s) | .pSquareQuantileForMedian, .psq (.val s) => s.Sized 5
  | .weightedPSquareQuantile, .wpsq (.val s) | .weightedPSquareQuantileForMedian, .wpsq (.val s) => s.Sized 5
  | .pSquareCumul, .cumul (.val s) => s.m.Sized (cfg.cells + 1) ∧ s.hist.length = cfg.cells + 1
  | .weightedPSquareCumul, .wcumul (.val s) => s.m.Sized (cfg.cells + 1) ∧ s.hist.length = cfg.cells + 1
  | .extendedPSquare, .psq (.val s) => s.Sized (2 * cfg.probs.length + 3)
  | .weightedExtendedPSquare, .wpsq (.val s) => s.Sized (2 * cfg.probs.length + 3)
  | .tail side, .tail (.val s) =>
    ∃ (ps : List (K × Unit)) (st : TailSt K Unit) (slots : List (K × Unit)),
      TailSt.Inv side cfg.tailCache ps st slots ∧ s = st.own
  | .tailVariate _ _, .variates (.val l) => l.length = cfg.tailCache
  | .tailWeights _, .weights (.val l) => l.length = cfg.tailCache
  | _, c => c.stored = 0

/-- The elements in the containers of a small accumulator. -/
theorem Small.le {cfg : Cfg K} {f : StdF} {c : Cell K} (h : Small cfg f c) : c.stored ≤ capacity cfg f := by
  unfold Small at h
  split at h
  · exact h.2
  · obtain ⟨-, h2, h3, h4, h5⟩ := h
    simp only [stored, capacity]; omega
  · obtain ⟨-, h2, h3, h4, h5⟩ := h
    simp only [stored, capacity]; omega
  · obtain ⟨h1, h2, h3⟩ := h
    simp only [stored, capacity]; omega
  · obtain ⟨h1, h2, h3⟩ := h
    simp only [stored, capacity]; omega
  · obtain ⟨h1, h2⟩ := h
    simp only [stored, capacity]; omega
  · obtain ⟨h1, h2⟩ := h
    simp only [stored, capacity]; omega
  · obtain ⟨⟨h1, h2, h3⟩, h4⟩ := h
    simp only [stored, capacity]; omega
  · obtain ⟨⟨h1, h2⟩, h4⟩ := h
    simp only [stored, capacity]; omega
  · obtain ⟨h1, h2, h3⟩ := h
    simp only [stored, capacity]; omega
  · obtain ⟨h1, h2⟩ := h
    simp only [stored, capacity]; omega
  · obtain ⟨ps, st, slots, h, rfl⟩ := h
    have h1 : st.indices.length = min ps.length cfg.tailCache := by simpa using h.perm.length_eq
    have h2 : st.samples.length = cfg.tailCache := by rw [h.samples, List.length_map, h.len]
    simp only [stored, capacity, TailSt.own]
    omega
  · simp only [stored, capacity]; omega
  · simp only [stored, capacity]; omega
  · omega

theorem start_small (cfg : Cfg K) (f : StdF) : Small cfg f (start cfg f) := by
  have e : (epsqIncr cfg.probs).length = 2 * cfg.probs.length + 3 := by
    simp [epsqIncr, interleave_length]; omega
  cases f with
  | rollingWindowPlus1 => exact ⟨rfl, by simp [windowInit]⟩
  | density => simp [start, Small, DensitySt.Sized, densityInit]
  | weightedDensity => simp [start, Small, WDensitySt.Sized, wdensityInit]
  | pSquareQuantile => simp [start, Small, PsqSt.Sized, psqInit, psqQuantileIncr, psqQuantileDes]
  | pSquareQuantileForMedian => simp [start, Small, PsqSt.Sized, psqInit, psqQuantileIncr, psqQuantileDes]
  | weightedPSquareQuantile => simp [start, Small, WPsqSt.Sized, wpsqInit]
  | weightedPSquareQuantileForMedian => simp [start, Small, WPsqSt.Sized, wpsqInit]
  | pSquareCumul => simp [start, Small, PsqSt.Sized, psqInit, psqCumulSet, psqCumulIncr, psqCumulDes]
  | weightedPSquareCumul => simp [start, Small, WPsqSt.Sized, wpsqInit, wpsqCumulSet]
  | extendedPSquare => simp [start, Small, PsqSt.Sized, psqInit, epsqDes, e]
  | weightedExtendedPSquare => simp [start, Small, WPsqSt.Sized, wpsqInit]
  | tail side => exact ⟨_, _, _, tailInit_inv side cfg.tailCache 0 (), rfl⟩
  | tailVariate v side => simp [start, Small]
  | tailWeights side => simp [start, Small]
  | _ => rfl

theorem own_eq (s : TailSt K Unit) : s.own.join s.variates = s := rfl

/-- The tail after a push. -/
theorem tail_next_small {cfg : Cfg K} {side : Side} {s s' : TailOwn K} {x : K} {ps : List (K × Unit)}
    {st : TailSt K Unit} {slots : List (K × Unit)} (h : TailSt.Inv side cfg.tailCache ps st slots) (hs : s = st.own)
    (hn : TailOwn.next cfg.heap side (.val s) x = .val s') :
    ∃ (ps : List (K × Unit)) (st : TailSt K Unit) (slots : List (K × Unit)),
      TailSt.Inv side cfg.tailCache ps st slots ∧ s' = st.own := by
  subst hs
  rcases Nat.eq_zero_or_pos cfg.tailCache with h0 | h0
  · exfalso
    have h1 : st.indices = [] := by
      have := h.perm.length_eq
      rw [h0] at this
      simpa using this
    have h2 : st.samples = [] := by
      have : st.samples.length = 0 := by rw [h.samples, List.length_map, h.len, h0]
      simpa using this
    simp [TailOwn.next, TailOwn.push, TailSt.own, h1, h2, Res.bind] at hn
  · obtain ⟨st', slots', j1, j2⟩ := h.push cfg.heap h0 (x, ())
    rw [tailPush_next cfg.heap side j1] at hn
    injection hn with hn
    exact ⟨_, st', slots', j2, hn.symm⟩

theorem step_small {cfg : Cfg K} (env : Env StdF (Cell K)) (a : FArgs K) {f : StdF} {c : Cell K} (h : Small cfg f c) :
    Small cfg f (step cfg env a f (some (f, c))) := by
  have e : (epsqIncr cfg.probs).length = 2 * cfg.probs.length + 3 := by
    simp [epsqIncr, interleave_length]; omega
  have psq : ∀ {incr : List K} {m : ℕ}, incr.length = m → ∀ {n : ℕ} {r : Res (PsqSt K)},
      (∀ s, r = .val s → s.Sized m) → ∀ s', (if n = 0 then .ub else r.bind fun s => psqStep incr n s a.x) = .val s' →
      s'.Sized m := by
    intro incr m hi n r hr s' hs
    split at hs
    · cases hs
    · obtain ⟨s, hs1, hs⟩ := bind_val_of hs
      exact psqStep_sized hi (hr s hs1) hs
  have wpsq : ∀ {m q : ℕ} {des : K → K → Res (List K)} {n : ℕ} {w : Res K} {r : Res (WPsqSt K)},
      (∀ s, r = .val s → s.Sized m) →
      ∀ s', (if n = 0 then .ub else w.bind fun w => r.bind fun s => wpsqStep m q des n w s (a.x, a.w)) = .val s' →
      s'.Sized m := by
    intro m q des n w r hr s' hs
    split at hs
    · cases hs
    · obtain ⟨w, -, hs⟩ := bind_val_of hs
      obtain ⟨s, hs1, hs⟩ := bind_val_of hs
      exact wpsqStep_sized (hr s hs1) hs
  cases he : elementary f with
  | true => rw [step_elem _ _ he]; cases f <;> first | (cases he; done) | rfl
  | false =>
    cases f with
    | rollingWindowPlus1 =>
      cases c with
      | window b =>
        obtain ⟨h1, h2⟩ := h
        show (windowPush b a.x).cap = _ ∧ (windowPush b a.x).elems.length ≤ _
        unfold windowPush Ring.pushBack
        split
        · refine ⟨h1, ?_⟩
          rw [List.length_append]
          simp only [List.length_singleton]
          omega
        · split
          · exact ⟨h1, h2⟩
          · refine ⟨h1, ?_⟩
            rw [List.length_append, List.length_tail]
            simp only [List.length_singleton]
            omega
      | _ => rfl
    | density =>
      cases c with
      | dens s =>
        show Small cfg .density (.dens _)
        generalize hr : (if countOf env = 0 then Res.ub else _) = r
        cases r with
        | val s' =>
          split at hr
          · cases hr
          · obtain ⟨mn, -, hr⟩ := bind_val_of hr
            obtain ⟨mx, -, hr⟩ := bind_val_of hr
            obtain ⟨s0, rfl, hr⟩ := bind_val_of hr
            exact densityStep_sized h hr
        | _ => rfl
      | _ => rfl
    | weightedDensity =>
      cases c with
      | wdens s =>
        show Small cfg .weightedDensity (.wdens _)
        generalize hr : (if countOf env = 0 then Res.ub else _) = r
        cases r with
        | val s' =>
          split at hr
          · cases hr
          · obtain ⟨mn, -, hr⟩ := bind_val_of hr
            obtain ⟨mx, -, hr⟩ := bind_val_of hr
            obtain ⟨w, -, hr⟩ := bind_val_of hr
            obtain ⟨s0, rfl, hr⟩ := bind_val_of hr
            exact wdensityStep_sized h hr
        | _ => rfl
      | _ => rfl
    | pSquareQuantile =>
      cases c with
      | psq s =>
        show Small cfg .pSquareQuantile (.psq _)
        generalize hr : (if countOf env = 0 then Res.ub else _) = r
        cases r with
        | val s' => exact psq (m := 5) rfl (fun s0 h0 => by subst h0; exact h) s' hr
        | _ => rfl
      | _ => rfl
    | pSquareQuantileForMedian =>
      cases c with
      | psq s =>
        show Small cfg .pSquareQuantileForMedian (.psq _)
        generalize hr : (if countOf env = 0 then Res.ub else _) = r
        cases r with
        | val s' => exact psq (m := 5) rfl (fun s0 h0 => by subst h0; exact h) s' hr
        | _ => rfl
      | _ => rfl
    | extendedPSquare =>
      cases c with
      | psq s =>
        show Small cfg .extendedPSquare (.psq _)
        generalize hr : (if countOf env = 0 then Res.ub else _) = r
        cases r with
        | val s' => exact psq e (fun s0 h0 => by subst h0; exact h) s' hr
        | _ => rfl
      | _ => rfl
    | pSquareCumul =>
      cases c with
      | cumul s =>
        show Small cfg .pSquareCumul (.cumul _)
        generalize hr : (if countOf env = 0 then Res.ub else _) = r
        cases r with
        | val s' =>
          split at hr
          · cases hr
          · obtain ⟨s0, h0, hr1⟩ := bind_val_of hr
            subst h0
            obtain ⟨m, hm, hr⟩ := bind_val_of hr1
            injection hr with hr
            rw [← hr]
            exact ⟨psqStep_sized (by simp [psqCumulIncr]) h.1 hm, h.2⟩
        | _ => rfl
      | _ => rfl
    | weightedPSquareQuantile =>
      cases c with
      | wpsq s =>
        show Small cfg .weightedPSquareQuantile (.wpsq _)
        generalize hr : (if countOf env = 0 then Res.ub else _) = r
        cases r with
        | val s' => exact wpsq (fun s0 h0 => by subst h0; exact h) s' hr
        | _ => rfl
      | _ => rfl
    | weightedPSquareQuantileForMedian =>
      cases c with
      | wpsq s =>
        show Small cfg .weightedPSquareQuantileForMedian (.wpsq _)
        generalize hr : (if countOf env = 0 then Res.ub else _) = r
        cases r with
        | val s' => exact wpsq (fun s0 h0 => by subst h0; exact h) s' hr
        | _ => rfl
      | _ => rfl
    | weightedExtendedPSquare =>
      cases c with
      | wpsq s =>
        show Small cfg .weightedExtendedPSquare (.wpsq _)
        generalize hr : (if countOf env = 0 then Res.ub else _) = r
        cases r with
        | val s' => exact wpsq (fun s0 h0 => by subst h0; exact h) s' hr
        | _ => rfl
      | _ => rfl
    | weightedPSquareCumul =>
      cases c with
      | wcumul s =>
        show Small cfg .weightedPSquareCumul (.wcumul _)
        generalize hr : (if countOf env = 0 then Res.ub else _) = r
        cases r with
        | val s' =>
          split at hr
          · cases hr
          · obtain ⟨w, -, hr⟩ := bind_val_of hr
            obtain ⟨s0, h0, hr1⟩ := bind_val_of hr
            subst h0
            obtain ⟨m, hm, hr⟩ := bind_val_of hr1
            injection hr with hr
            rw [← hr]
            exact ⟨wpsqStep_sized h.1 hm, h.2⟩
        | _ => rfl
      | _ => rfl
    | tail side =>
      cases c with
      | tail s =>
        show Small cfg (.tail side) (.tail (TailOwn.next cfg.heap side s a.x))
        generalize hr : TailOwn.next cfg.heap side s a.x = r
        cases r with
        | val s' =>
          obtain ⟨s0, rfl, -⟩ := bind_val_of hr
          obtain ⟨ps, st, slots, h1, h2⟩ := h
          exact tail_next_small h1 h2 hr
        | _ => rfl
      | _ => rfl
    | tailVariate v side => exact h
    | tailWeights side => exact h
    | rollingVariance =>
      cases c with
      | rollVar v => simp only [step]; split <;> rfl
      | _ => rfl
    | immediateRollingVariance =>
      cases c with
      | rollVar v => simp only [step]; split <;> rfl
      | _ => rfl
    | _ => first | (cases he; done) | rfl | (cases c <;> rfl)

theorem write_small {cfg : Cfg K} (f : StdF) (env : Env StdF (Cell K)) (a : FArgs K) {t : Tag StdF} {c : Cell K}
    (h : Small cfg t.base c) : Small cfg t.base (write cfg f env a t c) := by
  have key : ∀ {V : Type} {sl : Res (Option ℕ)} {v : V} {l : Res (List V)} {l' : List V} {k : ℕ},
      (∀ l0, l = .val l0 → l0.length = k) → assignSlot sl v l = .val l' → l'.length = k := by
    intro V sl v l l' k hl h
    unfold assignSlot at h
    obtain ⟨i, -, h⟩ := bind_val_of h
    split at h
    · obtain ⟨l0, h0, h⟩ := bind_val_of h
      exact (setAt_length h).trans (hl l0 h0)
    · exact hl _ h
  unfold write
  split
  · split
    · show Small cfg (.tailVariate _ _) (.variates _)
      generalize hr : assignSlot _ _ _ = r
      cases r with
      | val l' => exact key (fun l0 h0 => by subst h0; exact h) hr
      | _ => rfl
    · exact h
  · split
    · show Small cfg (.tailWeights _) (.weights _)
      generalize hr : assignSlot _ _ _ = r
      cases r with
      | val l' => exact key (fun l0 h0 => by subst h0; exact h) hr
      | _ => rfl
    · exact h
  · exact h

theorem psqHist_length {h pos : List K} {n : K} {l : List (K × Res K)} (hh : psqHist h pos n = .val l) :
    l.length = h.length := by
  have := mapRes_length hh
  simpa using this

theorem settle_small {cfg : Cfg K} (env : Env StdF (Cell K)) (rd : StdF → Out K) {f : StdF} {c : Cell K}
    (h : Small cfg f c) : Small cfg f (settle cfg env rd f c) := by
  cases f with
  | density =>
    cases c with
    | dens s =>
      simp only [settle]
      split
      · rename_i r hr
        obtain ⟨s0, rfl, hr⟩ := bind_val_of hr
        exact densityQuery_sized (s := { s0 with cnt := countOf env }) h hr
      · exact h
    | _ => exact h
  | weightedDensity =>
    cases c with
    | wdens s =>
      simp only [settle]
      split
      · rename_i r hr
        obtain ⟨w, -, hr⟩ := bind_val_of hr
        obtain ⟨s0, rfl, hr⟩ := bind_val_of hr
        exact wdensityQuery_sized (s := { s0 with wsum := w }) h hr
      · exact h
    | _ => exact h
  | pSquareCumul =>
    cases c with
    | cumul s =>
      cases s with
      | val s =>
        simp only [settle]
        split
        · split
          · rename_i l hl
            exact ⟨h.1, (psqHist_length hl).trans h.1.1⟩
          · exact h
        · exact h
      | _ => exact h
    | _ => exact h
  | weightedPSquareCumul =>
    cases c with
    | wcumul s =>
      cases s with
      | val s =>
        simp only [settle]
        split
        · split
          · rename_i l hl
            obtain ⟨w, -, hl⟩ := bind_val_of hl
            exact ⟨h.1, (psqHist_length hl).trans h.1.1⟩
          · exact h
        · exact h
      | _ => exact h
    | _ => exact h
  | withDensityMedian =>
    cases c with
    | densMedian s d m =>
      simp only [settle]
      split
      · split <;> rfl
      · rfl
    | _ => exact h
  | withDensityWeightedMedian =>
    cases c with
    | densMedian s d m =>
      simp only [settle]
      split
      · split <;> rfl
      · rfl
    | _ => exact h
  | withCumulMedian =>
    cases c with
    | cumulMedian d m =>
      simp only [settle]
      split
      · split <;> rfl
      · rfl
    | _ => exact h
  | withCumulWeightedMedian =>
    cases c with
    | cumulMedian d m =>
      simp only [settle]
      split
      · split <;> rfl
      · rfl
    | _ => exact h
  | tail side =>
    cases c with
    | tail s =>
      cases s with
      | val s =>
        obtain ⟨ps, st, slots, h1, rfl⟩ := h
        refine ⟨ps, _, slots, (h1.sort cfg.heap).1, ?_⟩
        exact tailSort_own cfg.heap side st ([] : List Unit)
      | _ => exact h
    | _ => exact h
  | peaksOverThreshold side =>
    cases c with
    | pot s => rfl
    | _ => exact h
  | weightedPeaksOverThreshold side =>
    cases c with
    | wpot s => simp only [settle]; split <;> rfl
    | _ => exact h
  | peaksOverThresholdProb side =>
    cases c with
    | potProb mu sigma2 tp fit d => simp only [settle]; split <;> rfl
    | _ => exact h
  | weightedPeaksOverThresholdProb side =>
    cases c with
    | potProb mu sigma2 tp fit d =>
      simp only [settle]
      split
      · split
        · rfl
        · split <;> rfl
        · rfl
      · rfl
    | _ => exact h
  | _ => exact h

/-- Every accumulator of the set is small. -/
def SmallEnv (cfg : Cfg K) (env : Env StdF (Cell K)) : Prop := ∀ k f c, env k = some (f, c) → Small cfg f c

theorem smallEnv_visit {cfg : Cfg K} {S : List (Tag StdF)} (hnd : (S.map stdLib.tkey).Nodup) {refs : StdF → ℕ}
    {a : FArgs K} {env : Env StdF (Cell K)} (hd : Dom S env) (ht : Total S env) (h : SmallEnv cfg env) {t : Tag StdF}
    (hm : t ∈ S) : SmallEnv cfg (stdLib.visitX (fullImpl cfg) S refs a env t) := by
  intro k f c hc
  unfold Lib.visitX at hc
  split at hc
  · exact h k f c hc
  · dsimp only at hc
    split at hc
    · rename_i hk
      injection hc with hc
      injection hc with e1 e2
      obtain ⟨c0, h0⟩ := ht t hm
      have e2' : step cfg env a t.base (env (stdLib.tkey t)) = c := e2
      rw [h0] at e2'
      rw [← e2', ← e1]
      exact step_small env a (h _ _ _ h0)
    · rename_i hk
      split at hc
      · rename_i t' ht'
        rcases he : env k with _ | ⟨f', c'⟩
        · rw [he] at hc; cases hc
        · rw [he] at hc
          injection hc with hc
          injection hc with e1 e2
          have e1' : f' = f := e1
          have e2' : write cfg t.base env a t' c' = c := e2
          obtain ⟨t'', hm'', hk'', hb''⟩ := hd k f' c' he
          have h1 : t' ∈ S := List.mem_of_find?_eq_some ht'
          have h2 : stdLib.tkey t' = k := by simpa using List.find?_some ht'
          have h3 : t' = t'' := List.inj_on_of_nodup_map hnd h1 hm'' (h2.trans hk''.symm)
          have h4 : t'.base = f := by rw [h3, hb'', e1']
          rw [← e2', ← h4]
          refine write_small _ _ _ ?_
          rw [h4, ← e1']
          exact h _ _ _ he
      · exact h k f c hc

theorem smallEnv_push {cfg : Cfg K} {S : List (Tag StdF)} (hnd : (S.map stdLib.tkey).Nodup) {refs : StdF → ℕ}
    {a : FArgs K} (S' : List (Tag StdF)) (hS : ∀ t ∈ S', t ∈ S) {env : Env StdF (Cell K)} (hd : Dom S env)
    (ht : Total S env) (h : SmallEnv cfg env) :
    Dom S (stdLib.pushX (fullImpl cfg) S refs S' env a) ∧ Total S (stdLib.pushX (fullImpl cfg) S refs S' env a) ∧
      SmallEnv cfg (stdLib.pushX (fullImpl cfg) S refs S' env a) := by
  induction S' generalizing env with
  | nil => exact ⟨hd, ht, h⟩
  | cons t S' ih =>
    have hm := hS t (by simp)
    rw [Lib.pushX, List.foldl_cons, ← Lib.pushX]
    exact ih (fun t ht => hS t (by simp [ht])) (dom_visit hd hm) (total_visit hnd ht hm)
      (smallEnv_visit hnd hd ht h hm)

/-- The set as far as the sizes are concerned. -/
structure SmallSet (cfg : Cfg K) (S : List (Tag StdF)) (env : Env StdF (Cell K)) : Prop where
  dom : Dom S env
  total : Total S env
  small : SmallEnv cfg env

theorem readAll_small {cfg : Cfg K} {S : List (Tag StdF)}
    {ex : StdF → Env StdF (Cell K) → Env StdF (Cell K) × Out K}
    (hex : ∀ k env, SmallSet cfg S env → SmallSet cfg S (ex k env).1 ∧
      ∀ k' f c, env k' = some (f, c) → ∃ c', (ex k env).1 k' = some (f, c')) (ks : List StdF) {env : Env StdF (Cell K)}
    (h : SmallSet cfg S env) : SmallSet cfg S (readAll ex ks env).1 ∧
      ∀ k' f c, env k' = some (f, c) → ∃ c', (readAll ex ks env).1 k' = some (f, c') := by
  induction ks generalizing env with
  | nil => exact ⟨h, fun k' f c hc => ⟨c, hc⟩⟩
  | cons k ks ih =>
    obtain ⟨h1, h2⟩ := hex k env h
    obtain ⟨h3, h4⟩ := ih h1
    refine ⟨h3, fun k' f c hc => ?_⟩
    obtain ⟨c', hc'⟩ := h2 k' f c hc
    exact h4 k' f c' hc'

theorem extractN_small {cfg : Cfg K} {S : List (Tag StdF)} (p : K) (m : ℕ) : ∀ k env, SmallSet cfg S env →
    SmallSet cfg S (extractN cfg p m k env).1 ∧
      ∀ k' f c, env k' = some (f, c) → ∃ c', (extractN cfg p m k env).1 k' = some (f, c') := by
  induction m with
  | zero => exact fun k env h => ⟨h, fun k' f c hc => ⟨c, hc⟩⟩
  | succ m ih =>
    intro k env h
    rw [extractN]
    rcases he : env k with _ | ⟨f, c⟩
    · exact ⟨h, fun k' f c hc => ⟨c, hc⟩⟩
    · obtain ⟨h1, h2⟩ := readAll_small ih (reads f c) h
      dsimp only
      have hat : ∀ k' f' c', (if k' = k then some (f, settle cfg (readAll (extractN cfg p m) (reads f c) env).1
          (readAll (extractN cfg p m) (reads f c) env).2 f c)
          else (readAll (extractN cfg p m) (reads f c) env).1 k') = some (f', c') →
          (k' = k ∧ f' = f ∧ c' = settle cfg (readAll (extractN cfg p m) (reads f c) env).1
            (readAll (extractN cfg p m) (reads f c) env).2 f c) ∨
          (readAll (extractN cfg p m) (reads f c) env).1 k' = some (f', c') := by
        intro k' f' c' hc
        split at hc
        · rename_i hk
          injection hc with hc
          injection hc with e1 e2
          exact Or.inl ⟨hk, e1.symm, e2.symm⟩
        · exact Or.inr hc
      refine ⟨⟨?_, ?_, ?_⟩, ?_⟩
      · intro k' f' c' hc
        rcases hat k' f' c' hc with ⟨rfl, rfl, rfl⟩ | hc
        · exact h.dom _ _ _ he
        · exact h1.dom _ _ _ hc
      · intro t ht
        obtain ⟨c', hc'⟩ := h1.total t ht
        dsimp only
        by_cases hk : stdLib.tkey t = k
        · rw [if_pos hk]
          obtain ⟨c0, hc0⟩ := h.total t ht
          rw [hk, he] at hc0
          injection hc0 with hc0
          injection hc0 with e1 e2
          rw [e1]
          exact ⟨_, rfl⟩
        · rw [if_neg hk]
          exact ⟨c', hc'⟩
      · intro k' f' c' hc
        rcases hat k' f' c' hc with ⟨rfl, rfl, rfl⟩ | hc
        · exact settle_small _ _ (h.small _ _ _ he)
        · exact h1.small _ _ _ hc
      · intro k' f' c' hc
        by_cases hk : k' = k
        · subst hk
          rw [he] at hc
          injection hc with hc
          injection hc with e1 e2
          rw [← e1, if_pos rfl]
          exact ⟨_, rfl⟩
        · rw [if_neg hk]
          exact h2 _ _ _ hc

end

end Cell

section
variable {K : Type} [Field K] [LinearOrder K] [IsStrictOrderedRing K] [FloorRing K]

theorem anyStep_small {cfg : Cfg K} {S : List (Tag StdF)} (hnd : (S.map stdLib.tkey).Nodup)
    {s s' : SetState StdF (Cell K)} (h : Cell.SmallSet cfg S s.env) {op : AnyOp K} (hs : anyStep cfg S s op = .val s') :
    Cell.SmallSet cfg S s'.env := by
  cases op with
  | push a =>
    injection hs with hs
    subst hs
    obtain ⟨h1, h2, h3⟩ := Cell.smallEnv_push hnd (refs := s.refs) (a := a) S (fun t ht => ht) h.dom h.total h.small
    exact ⟨h1, h2, h3⟩
  | drop f =>
    obtain ⟨c, -, hs⟩ := Cell.bind_val_of (hs : (stdLib.dropFeature S s.refs f).bind _ = _)
    injection hs with hs
    subst hs
    exact h
  | extract k p =>
    obtain ⟨env, he, hs⟩ := Res.bind_eq_val.1 hs
    injection hs with hs
    subst hs
    simp only [Cell.queryStep] at he
    split at he
    · cases he
    · injection he with he
      subst he
      exact (Cell.extractN_small p _ _ _ h).1

theorem anyRun_small (cfg : Cfg K) (w : Bool) {ord : List (Tag StdF) → List (Tag StdF)} (hord : ∀ l, (ord l).Perm l)
    (req : List (Tag StdF)) {ops : List (AnyOp K)} {s : SetState StdF (Cell K)}
    (h : anyRun cfg w ord req ops = .val s) : Cell.SmallSet cfg (stdLib.accumulators w ord req) s.env := by
  have hnd := C42_unique stdLib_ok w hord req
  have key : ∀ (ops : List (AnyOp K)) (s s' : SetState StdF (Cell K)),
      Cell.SmallSet cfg (stdLib.accumulators w ord req) s.env →
      ops.foldlM (anyStep cfg (stdLib.accumulators w ord req)) s = .val s' →
      Cell.SmallSet cfg (stdLib.accumulators w ord req) s'.env := by
    intro ops
    induction ops with
    | nil => intro s s' h hs; injection hs with hs; rw [← hs]; exact h
    | cons op ops ih =>
      intro s s' h hs
      rw [List.foldlM_cons] at hs
      obtain ⟨s1, h1, hs⟩ := Res.bind_eq_val.1 hs
      exact ih s1 s' (anyStep_small hnd h h1) hs
  refine key ops _ _ ?_ h
  have hdom := Cell.construct_dom (fullImpl cfg).toImpl (stdLib.accumulators w ord req) req
  have hat := fun t ht => Lib.construct_at (L := stdLib) (fullImpl cfg).toImpl hnd req (t := t) ht
  refine ⟨hdom, fun t ht => ⟨_, hat t ht⟩, fun k f c hc => ?_⟩
  obtain ⟨t, ht, hk, hb⟩ := hdom k f c hc
  rw [← hk, hat t ht] at hc
  injection hc with hc
  injection hc with e1 e2
  rw [← e2, ← e1]
  exact Cell.start_small cfg t.base

/-- **C77**: construct a set of any features, weighted or not, with or without droppable ones; push, extract and drop in any
order.  As long as the program is defined, every accumulator holds at most the number of elements determined by the
arguments of the constructor. -/
theorem C77_bounded (cfg : Cfg K) (w : Bool) {ord : List (Tag StdF) → List (Tag StdF)} (hord : ∀ l, (ord l).Perm l)
    (req : List (Tag StdF)) {ops : List (AnyOp K)} {s : SetState StdF (Cell K)}
    (h : anyRun cfg w ord req ops = .val s) {k f : StdF} {c : Cell K} (hc : s.env k = some (f, c)) :
    c.stored ≤ Cell.capacity cfg f :=
  ((anyRun_small cfg w hord req h).small _ _ _ hc).le

/-- **C77**: the accumulators are always those of the constructed set, so the number of elements in all of them is at
most a number known at construction. -/
theorem C77_total (cfg : Cfg K) (w : Bool) {ord : List (Tag StdF) → List (Tag StdF)} (hord : ∀ l, (ord l).Perm l)
    (req : List (Tag StdF)) {ops : List (AnyOp K)} {s : SetState StdF (Cell K)}
    (h : anyRun cfg w ord req ops = .val s) :
    (∀ k, (s.env k).isSome → k ∈ (stdLib.accumulators w ord req).map stdLib.tkey) ∧
    ((stdLib.accumulators w ord req).map fun t => ((s.env (stdLib.tkey t)).map fun c => c.2.stored).getD 0).sum ≤
      ((stdLib.accumulators w ord req).map fun t => Cell.capacity cfg t.base).sum := by
  have hs := anyRun_small cfg w hord req h
  refine ⟨fun k hk => ?_, List.sum_le_sum fun t ht => ?_⟩
  · obtain ⟨⟨f, c⟩, hc⟩ := Option.isSome_iff_exists.1 hk
    obtain ⟨t, ht, e, -⟩ := hs.dom k f c hc
    exact List.mem_map.2 ⟨t, ht, e⟩
  · obtain ⟨c, hc⟩ := hs.total t ht
    rw [hc]
    exact (hs.small _ _ _ hc).le

end

/-! ## The hypotheses can be met -/

/-- Eight pushes, with extractions and a drop in between. -/
def memoryOps : List (AnyOp ℚ) :=
  let a (n : ℕ) : AnyOp ℚ := .push ⟨⟨(n * n % 7 : ℕ), 1, fun _ => 2⟩, fun _ => [5]⟩
  [a 1, a 2, .extract StdF.density 0, a 3, a 4, .extract (.tail .right) 0, .drop ⟨StdF.rollingWindowPlus1, true⟩, a 5,
    a 6, a 7, .extract StdF.pSquareCumul 0, a 8]

def memoryReq : List (Tag StdF) :=
  [⟨StdF.density, false⟩, ⟨StdF.pSquareCumul, false⟩, ⟨StdF.extendedPSquare, false⟩, ⟨.tail .right, false⟩,
    ⟨.rollingWindowPlus1, true⟩, ⟨StdF.mean, false⟩]

/-- The program is defined, and all containers are full: the bounds are attained. -/
example : (do
    let s ← anyRun exampleCfg false id memoryReq memoryOps
    pure (memoryReq.map fun t => ((s.env (stdLib.tkey t)).map fun c => c.2.stored).getD 0))
      = Res.val [15, 16, 21, 4, 3, 0] ∧
    (memoryReq.map fun t => Cell.capacity exampleCfg t.base) = [15, 16, 21, 4, 3, 0] := by
  decide +kernel

end Acc
