import Verif.Model.Density
import Verif.Proofs.Density
import Verif.Props.Density
import Verif.Proofs.PSquare
import Verif.Props.Nonfinite

/-!
# C87: infinite and NaN samples in the histograms

`density.hpp` and `weighted_density.hpp`, run on numbers with infinities and NaN (`Ext F`).
-/

set_option linter.unusedSectionVars false

namespace Acc

open Ext

/-! ## Any ordered arithmetic

Nothing is assumed of the comparisons: `x < y` and `y ≤ x` may both be false. -/

section
variable {K : Type} [Arith K] [DecidableEq K] [LE K] [LT K] [DecidableLE K] [DecidableLT K]

/-- The precondition of `std::upper_bound` where it is called. -/
def GoodEdges (B : ℕ) (E : ℕ → K) : Prop :=
  ∀ x, ¬ x < E 1 → ¬ E (B + 1) ≤ x → ∃ d, 1 ≤ d ∧ d ≤ B + 2 ∧ (∀ i < d, ¬ x < E i) ∧ ∀ i, d ≤ i → i < B + 2 → x < E i

/-- The bin of a sample. -/
def binC (B : ℕ) (E : ℕ → K) (x : K) : ℕ :=
  if x < E 1 then 0 else if E (B + 1) ≤ x then B + 1 else (tab (B + 2) E).findIdx (fun e => decide (x < e)) - 1

theorem findIdx_tab {m d : ℕ} {E : ℕ → K} {x : K} (hd : d ≤ m) (h1 : ∀ i < d, ¬ x < E i)
    (h2 : ∀ i, d ≤ i → i < m → x < E i) : (tab m E).findIdx (fun e => decide (x < e)) = d := by
  rcases Nat.lt_or_eq_of_le hd with hlt | rfl
  · rw [List.findIdx_eq (by simpa using hlt)]
    constructor
    · rw [tab_getElem]
      simpa using h2 d le_rfl hlt
    · intro j hj
      rw [tab_getElem]
      simpa using h1 j hj
  · rw [List.findIdx_eq_length.2]
    · simp
    · intro e he
      unfold tab at he
      obtain ⟨i, hi, rfl⟩ := List.mem_map.1 he
      simpa using h1 i (List.mem_range.1 hi)

theorem binC_spec {B : ℕ} {E : ℕ → K} (h : GoodEdges B E) (x : K) :
    binC B E x ≤ B + 1 ∧ (x < E 1 → binC B E x = 0) ∧ (¬ x < E 1 → E (B + 1) ≤ x → binC B E x = B + 1) ∧
      (¬ x < E 1 → ¬ E (B + 1) ≤ x → ∀ i ≤ B + 1, x < E i ↔ binC B E x < i) ∧
      ∀ bins inc, binAdd B (tab (B + 2) E) bins x inc = modifyAt bins (binC B E x) (· + inc) := by
  unfold binAdd binC
  rw [getAt_tab _ (by omega)]
  by_cases c1 : x < E 1
  · simp [c1]
  rw [getAt_tab _ (by omega)]
  by_cases c2 : E (B + 1) ≤ x
  · simp [c1, c2]
  obtain ⟨d, hd1, hd, h1, h2⟩ := h x c1 c2
  have e := findIdx_tab hd h1 h2
  simp only [c1, c2, if_false, e, Res.val_bind, IsEmpty.forall_iff, true_and, not_false_eq_true, forall_const]
  refine ⟨by omega, fun i hi => ⟨fun hx => ?_, fun hx => h2 i (by omega) (by omega)⟩, fun bins inc => ?_⟩
  · by_contra hc
    exact h1 i (by omega) hx
  · have : upperBound (tab (B + 2) E) x = .val d := by
      unfold upperBound
      simp only [e]
      rw [if_pos]
      rw [List.all_eq_true]
      intro y hy
      obtain ⟨j, hj, rfl⟩ := List.mem_iff_getElem.1 hy
      simp only [List.length_drop, tab_length] at hj
      rw [List.getElem_drop, tab_getElem]
      simpa using h2 (d + j) (by omega) (by omega)
    rw [this, Res.val_bind]
    obtain ⟨k, rfl⟩ : ∃ k, d = k + 1 := ⟨d - 1, by omega⟩
    rfl

/-- The edges as computed from the extremes `a`, `b`. -/
def gEdge (a b : K) (B i : ℕ) : K := a + ((i : K) - 1) * ((b - a) / (B : K))

/-- The weights in `ps` of the samples in bin `i`, added in order of arrival. -/
def gWeight (B : ℕ) (E : ℕ → K) (i : ℕ) (ps : List (K × K)) : K :=
  ((ps.filter fun p => decide (binC B E p.1 = i)).map Prod.snd).foldl (· + ·) 0

theorem binAdd_gWeight {B : ℕ} {E : ℕ → K} (hE : GoodEdges B E) (ps : List (K × K)) (p : K × K) :
    binAdd B (tab (B + 2) E) (tab (B + 2) fun i => gWeight B E i ps) p.1 p.2
      = .val (tab (B + 2) fun i => gWeight B E i (ps ++ [p])) := by
  obtain ⟨hk, -, -, -, e⟩ := binC_spec hE p.1
  rw [e, modifyAt_lt (by simp; omega)]
  congr 1
  apply List.ext_getElem
  · simp
  · intro i h1 h2
    simp only [tab_length] at h2
    rw [List.getElem_set]
    simp only [tab_getElem, gWeight, List.filter_append]
    by_cases hik : binC B E p.1 = i
    · rw [if_pos hik, List.filter_cons_of_pos (by simpa using hik)]
      simp [hik]
    · rw [if_neg hik, List.filter_cons_of_neg (by simpa using hik)]
      simp

theorem foldRes_gWeight {B : ℕ} {E : ℕ → K} (hE : GoodEdges B E) (ps qs : List (K × K)) :
    foldRes (fun bins (q : K × K) => binAdd B (tab (B + 2) E) bins q.1 q.2) (tab (B + 2) fun i => gWeight B E i ps) qs
      = .val (tab (B + 2) fun i => gWeight B E i (ps ++ qs)) := by
  induction qs generalizing ps with
  | nil => simp [foldRes]
  | cons q qs ih =>
    simp only [foldRes]
    rw [binAdd_gWeight hE ps q, Res.val_bind, ih (ps ++ [q])]
    simp

theorem gWeight_nil (B : ℕ) (E : ℕ → K) : (tab (B + 2) fun i => gWeight B E i []) = List.replicate (B + 2) 0 := by
  apply List.ext_getElem
  · simp
  · intro i _ _
    rw [tab_getElem, List.getElem_replicate]
    rfl

/-- Least and greatest of the first `c` samples as the set computes them. -/
def gMin (hi : K) (c : ℕ) (xs : List K) : K := minRun ltb hi (xs.take c)
def gMax (lo : K) (c : ℕ) (xs : List K) : K := maxRun ltb lo (xs.take c)

/-- What has to be known of the extremes of the cached samples. -/
structure EdgesOk (lo hi : K) (c B : ℕ) (xs : List K) : Prop where
  mn : fdiv (gMin hi c xs) 1 = .val (gMin hi c xs)
  mx : fdiv (gMax lo c xs) 1 = .val (gMax lo c xs)
  good : GoodEdges B (gEdge (gMin hi c xs) (gMax lo c xs) B)

structure WDensitySt.GInv (lo hi : K) (c B : ℕ) (s : WDensitySt K) (ps : List (K × K)) : Prop where
  cnt : s.cnt = ps.length
  wsum : s.wsum = (ps.map Prod.snd).foldl (· + ·) 0
  mn : s.mn = minRun ltb hi (ps.map Prod.fst)
  mx : s.mx = maxRun ltb lo (ps.map Prod.fst)
  cs : s.cacheSize = c
  nb : s.numBins = B
  clen : s.cache.length = c
  cache : s.cache.take ps.length = ps.take c
  before : ps.length < c → s.bins = List.replicate (B + 2) 0 ∧ s.pos = List.replicate (B + 2) 0
  after : c ≤ ps.length →
    s.pos = tab (B + 2) (gEdge (gMin hi c (ps.map Prod.fst)) (gMax lo c (ps.map Prod.fst)) B) ∧
    s.bins = tab (B + 2) fun i =>
      gWeight B (gEdge (gMin hi c (ps.map Prod.fst)) (gMax lo c (ps.map Prod.fst)) B) i ps
  hist : s.dirty = false → ∃ s' : WDensitySt K, wdensityQuery { s with dirty := true } = .val (s', s.hist)

theorem wdensityInit_g (lo hi : K) {c B : ℕ} (hc : 0 < c) (x0 : K) :
    (wdensityInit lo hi c B x0).GInv lo hi c B [] where
  cnt := rfl
  wsum := rfl
  mn := rfl
  mx := rfl
  cs := rfl
  nb := rfl
  clen := by simp [wdensityInit]
  cache := by simp
  before := fun _ => ⟨rfl, rfl⟩
  after := fun h => by simp at h; omega
  hist := fun h => by simp [wdensityInit] at h

theorem gMin_snoc {hi : K} {c : ℕ} {xs : List K} (x : K) (h : c ≤ xs.length) : gMin hi c (xs ++ [x]) = gMin hi c xs := by
  rw [gMin, take_snoc_of_le x h, gMin]

theorem gMax_snoc {lo : K} {c : ℕ} {xs : List K} (x : K) (h : c ≤ xs.length) : gMax lo c (xs ++ [x]) = gMax lo c xs := by
  rw [gMax, take_snoc_of_le x h, gMax]

theorem cache_full {X : Type} {cache xs : List X} {c : ℕ} (x : X) (hl : cache.length = c) (h : xs.length + 1 = c)
    (hc : cache.take xs.length = xs.take c) : cache.set (xs.length + 1 - 1) x = xs ++ [x] := by
  have h1 : (cache.set xs.length x).take (xs.length + 1) = xs ++ [x] := by
    rw [List.take_of_length_le (l := xs) (by omega)] at hc
    rw [List.take_add_one, List.take_set_of_le (le_refl _), hc]
    simp [hl, show xs.length < c by omega]
  rw [List.take_of_length_le (by simp [hl]; omega)] at h1
  simpa using h1

theorem cache_filling {X : Type} {cache xs : List X} {c : ℕ} (x : X) (hl : cache.length = c) (h : xs.length + 1 < c)
    (hc : cache.take xs.length = xs.take c) :
    (cache.set (xs.length + 1 - 1) x).take (xs ++ [x]).length = (xs ++ [x]).take c := by
  simp only [List.length_append, List.length_singleton, Nat.add_sub_cancel]
  rw [List.take_of_length_le (l := xs ++ [x]) (by simp; omega)]
  rw [List.take_of_length_le (l := xs) (by omega)] at hc
  rw [List.take_add_one, List.take_set_of_le (le_refl _), hc]
  simp [hl, show xs.length < c by omega]

theorem wdensityPush_g {lo hi : K} {c B : ℕ} (hB : ∀ a : K, fdiv a (B : K) = .val (a / (B : K)))
    {s : WDensitySt K} {ps : List (K × K)} (p : K × K)
    (hE : EdgesOk lo hi c B ((ps ++ [p]).map Prod.fst))
    (I : s.GInv lo hi c B ps) : ∃ s', wdensityPush s p = .val s' ∧ s'.GInv lo hi c B (ps ++ [p]) := by
  have hw : sumStep s.wsum p.2 = ((ps ++ [p]).map Prod.snd).foldl (· + ·) 0 := by
    rw [I.wsum]; simp [sumStep]
  have hmn : minAssign ltb s.mn p.1 = minRun ltb hi ((ps ++ [p]).map Prod.fst) := by
    rw [I.mn]; simp [minRun]
  have hmx : maxAssign ltb s.mx p.1 = maxRun ltb lo ((ps ++ [p]).map Prod.fst) := by
    rw [I.mx]; simp [maxRun]
  unfold wdensityPush wdensityStep
  simp only [I.cs, I.nb, I.cnt]
  rcases lt_trichotomy (ps.length + 1) c with h | h | h
  · rw [if_pos h.le, setAt_lt (by rw [I.clen]; omega), Res.val_bind, if_neg h.ne, if_neg (by omega)]
    exact ⟨_, rfl, by simp, hw, hmn, hmx, rfl, rfl, by simp [I.clen], cache_filling p I.clen h I.cache,
      fun _ => I.before (by omega), fun h' => by simp at h'; omega, by simp⟩
  · rw [if_pos h.le, setAt_lt (by rw [I.clen]; omega), Res.val_bind, if_pos h]
    have htake : ((ps ++ [p]).map Prod.fst).take c = (ps ++ [p]).map Prod.fst :=
      List.take_of_length_le (by simp; omega)
    have e1 : minAssign ltb s.mn p.1 = gMin hi c ((ps ++ [p]).map Prod.fst) := by rw [hmn, gMin, htake]
    have e2 : maxAssign ltb s.mx p.1 = gMax lo c ((ps ++ [p]).map Prod.fst) := by rw [hmx, gMax, htake]
    set a := gMin hi c ((ps ++ [p]).map Prod.fst) with ha
    set b := gMax lo c ((ps ++ [p]).map Prod.fst) with hb
    rw [cache_full p I.clen h I.cache, (I.before (by omega)).1, ← gWeight_nil B (gEdge a b B)]
    have m1 : fdiv a 1 = .val a := hE.mn
    have m2 : fdiv b 1 = .val b := hE.mx
    simp only [e1, e2, m1, m2, hB, Res.val_bind, Res.pure_eq]
    have := foldRes_gWeight hE.good [] (ps ++ [p])
    rw [show binPositions B a ((b - a) / (B : K)) = tab (B + 2) (gEdge a b B) from rfl, this]
    refine ⟨_, rfl, ?_⟩
    refine ⟨by simp, hw, e1.symm.trans hmn, e2.symm.trans hmx, rfl, rfl, by simp; omega, ?_, ?_, ?_, by simp⟩
    · rw [List.take_of_length_le (l := ps ++ [p]) (i := c) (by simp; omega), List.take_of_length_le (le_refl _)]
    · intro h'; simp at h'; omega
    · intro _
      exact ⟨rfl, by simp⟩
  · have hcl : c ≤ ps.length := by omega
    have hcl' : c ≤ (ps.map Prod.fst).length := by simpa using hcl
    have em : gMin hi c ((ps ++ [p]).map Prod.fst) = gMin hi c (ps.map Prod.fst) := by
      rw [List.map_append, List.map_singleton, gMin_snoc p.1 hcl']
    have eM : gMax lo c ((ps ++ [p]).map Prod.fst) = gMax lo c (ps.map Prod.fst) := by
      rw [List.map_append, List.map_singleton, gMax_snoc p.1 hcl']
    have hg := hE.good
    rw [em, eM] at hg
    rw [if_neg (by omega), Res.val_bind, if_neg (by omega), if_pos h, (I.after hcl).1, (I.after hcl).2,
      binAdd_gWeight hg ps p]
    refine ⟨_, rfl, by simp, hw, hmn, hmx, rfl, rfl, I.clen, ?_, fun h' => by simp at h'; omega, fun _ => ?_, by simp⟩
    · have h0 := I.cache
      rw [List.take_of_length_le (by rw [I.clen]; omega)] at h0
      rw [List.take_of_length_le (by rw [I.clen]; simp; omega), take_snoc_of_le p hcl]; exact h0
    · rw [em, eM]
      exact ⟨rfl, rfl⟩

theorem WDensitySt.GInv.len {lo hi : K} {c B : ℕ} {s : WDensitySt K} {ps : List (K × K)}
    (I : s.GInv lo hi c B ps) : s.pos.length = B + 2 ∧ s.bins.length = B + 2 := by
  rcases Nat.lt_or_ge ps.length c with h | h
  · obtain ⟨h1, h2⟩ := I.before h
    rw [h1, h2]; simp
  · obtain ⟨h1, h2⟩ := I.after h
    rw [h1, h2]; simp

theorem wdensityQuery_g {lo hi : K} {c B : ℕ} {s : WDensitySt K} {ps : List (K × K)}
    (I : s.GInv lo hi c B ps) :
    ∃ s', wdensityQuery s = .val (s', tab (B + 2) fun i =>
        ((s.pos[i]?).getD 0, fdiv ((s.bins[i]?).getD 0) s.wsum)) ∧ s'.GInv lo hi c B ps := by
  have key : mapRes (fun i => do
        let p ← getAt s.pos i
        let b ← getAt s.bins i
        pure (p, fdiv b s.wsum)) (List.range (s.numBins + 2)) = .val (tab (B + 2) fun i =>
        ((s.pos[i]?).getD 0, fdiv ((s.bins[i]?).getD 0) s.wsum)) := by
    rw [I.nb, mapRes_val]
    · rfl
    · intro i hi
      have hi := List.mem_range.1 hi
      have i1 : i < s.pos.length := by rw [I.len.1]; exact hi
      have i2 : i < s.bins.length := by rw [I.len.2]; exact hi
      simp [getAt_lt i1, getAt_lt i2, i1, i2]
  by_cases hd : s.dirty = true
  · unfold wdensityQuery
    rw [if_pos hd, key]
    refine ⟨_, rfl, I.cnt, I.wsum, I.mn, I.mx, I.cs, I.nb, I.clen, I.cache, I.before, I.after, fun _ => ?_⟩
    exact ⟨_, by unfold wdensityQuery; rw [if_pos rfl, key]; rfl⟩
  · obtain ⟨s', h⟩ := I.hist (by simpa using hd)
    unfold wdensityQuery at h ⊢
    rw [if_pos rfl, key] at h
    rw [if_neg hd]
    refine ⟨s, ?_, I⟩
    simp only [Res.val_bind, Res.pure_eq, Res.val.injEq, Prod.mk.injEq] at h
    rw [h.2]
    rfl

theorem exec_inv_mem {X Q S A : Type} (M : RMachine X Q S A) (I : S → List X → Prop) (P : X → Prop)
    (hpush : ∀ s xs x, (∀ y ∈ xs ++ [x], P y) → I s xs → ∃ s', M.push s x = .val s' ∧ I s' (xs ++ [x]))
    (hquery : ∀ s xs q, I s xs → ∃ s' r, M.query s q = .val (s', r) ∧ I s' xs)
    (h : List (Op X Q)) (s : S) (xs : List X) (h0 : I s xs) (hP : ∀ y ∈ xs ++ pushes h, P y) :
    ∃ s', M.exec s h = .val s' ∧ I s' (xs ++ pushes h) := by
  induction h generalizing s xs with
  | nil => exact ⟨s, rfl, by simpa [pushes] using h0⟩
  | cons o os ih =>
    cases o with
    | push x =>
      obtain ⟨s', e, i⟩ := hpush s xs x (fun y hy => hP y (by
        simp only [pushes, List.mem_append, List.mem_cons, List.not_mem_nil, or_false] at hy ⊢
        tauto)) h0
      obtain ⟨s'', e', i'⟩ := ih s' (xs ++ [x]) i (by simpa [pushes] using hP)
      refine ⟨s'', ?_, by simpa [pushes] using i'⟩
      simp only [RMachine.exec, RMachine.exec1, e, Res.val_bind, e']
    | query q =>
      obtain ⟨s', r, e, i⟩ := hquery s xs q h0
      obtain ⟨s'', e', i'⟩ := ih s' xs i (by simpa [pushes] using hP)
      refine ⟨s'', ?_, by simpa [pushes] using i'⟩
      simp only [RMachine.exec, RMachine.exec1, e, Res.val_bind, Res.pure_eq, e']

theorem wdensity_g {lo hi : K} {c B : ℕ} (hB : ∀ a : K, fdiv a (B : K) = .val (a / (B : K))) (hc : 0 < c) (x0 : K)
    (P : K → Prop) (hE : ∀ xs : List K, xs ≠ [] → (∀ x ∈ xs, P x) → EdgesOk lo hi c B xs) (h : List (Op (K × K) Unit))
    (hP : ∀ p ∈ pushes h, P p.1) :
    ∃ s, (wdensitySet lo hi c B x0).exec (wdensityInit lo hi c B x0) h = .val s ∧ s.GInv lo hi c B (pushes h) := by
  have := exec_inv_mem (wdensitySet lo hi c B x0) (fun s ps => s.GInv lo hi c B ps) (fun p => P p.1)
    (fun s ps p hp I => wdensityPush_g hB p (hE _ (by simp) (List.forall_mem_map.2 hp)) I)
    (fun s ps q I => by
      obtain ⟨s', e, I'⟩ := wdensityQuery_g I
      exact ⟨s', _, e, I'⟩) h _ [] (wdensityInit_g lo hi hc x0) (by simpa using hP)
  simpa using this

/-- The number of samples in bin `i`, as counted. -/
def gCount (B : ℕ) (E : ℕ → K) (i : ℕ) (xs : List K) : K :=
  (xs.filter fun x => decide (binC B E x = i)).foldl (fun b _ => b + 1) 0

theorem binAdd_gCount {B : ℕ} {E : ℕ → K} (hE : GoodEdges B E) (xs : List K) (x : K) :
    binAdd B (tab (B + 2) E) (tab (B + 2) fun i => gCount B E i xs) x 1
      = .val (tab (B + 2) fun i => gCount B E i (xs ++ [x])) := by
  obtain ⟨hk, -, -, -, e⟩ := binC_spec hE x
  rw [e, modifyAt_lt (by simp; omega)]
  congr 1
  apply List.ext_getElem
  · simp
  · intro i h1 h2
    simp only [tab_length] at h2
    rw [List.getElem_set]
    simp only [tab_getElem, gCount, List.filter_append]
    by_cases hik : binC B E x = i
    · rw [if_pos hik, List.filter_cons_of_pos (by simpa using hik)]
      simp [hik]
    · rw [if_neg hik, List.filter_cons_of_neg (by simpa using hik)]
      simp

theorem foldRes_gCount {B : ℕ} {E : ℕ → K} (hE : GoodEdges B E) (xs ys : List K) :
    foldRes (fun bins y => binAdd B (tab (B + 2) E) bins y 1) (tab (B + 2) fun i => gCount B E i xs) ys
      = .val (tab (B + 2) fun i => gCount B E i (xs ++ ys)) := by
  induction ys generalizing xs with
  | nil => simp [foldRes]
  | cons y ys ih =>
    simp only [foldRes]
    rw [binAdd_gCount hE xs y, Res.val_bind, ih (xs ++ [y])]
    simp

theorem gCount_nil (B : ℕ) (E : ℕ → K) : (tab (B + 2) fun i => gCount B E i []) = List.replicate (B + 2) 0 := by
  apply List.ext_getElem
  · simp
  · intro i _ _
    rw [tab_getElem, List.getElem_replicate]
    rfl

structure DensitySt.GInv (lo hi : K) (c B : ℕ) (s : DensitySt K) (xs : List K) : Prop where
  cnt : s.cnt = xs.length
  mn : s.mn = minRun ltb hi xs
  mx : s.mx = maxRun ltb lo xs
  cs : s.cacheSize = c
  nb : s.numBins = B
  clen : s.cache.length = c
  cache : s.cache.take xs.length = xs.take c
  before : xs.length < c → s.bins = List.replicate (B + 2) 0 ∧ s.pos = List.replicate (B + 2) 0
  after : c ≤ xs.length → s.pos = tab (B + 2) (gEdge (gMin hi c xs) (gMax lo c xs) B) ∧
    s.bins = tab (B + 2) fun i => gCount B (gEdge (gMin hi c xs) (gMax lo c xs) B) i xs
  hist : s.dirty = false → ∃ s' : DensitySt K, densityQuery { s with dirty := true } = .val (s', s.hist)

theorem densityInit_g (lo hi : K) {c B : ℕ} (hc : 0 < c) (x0 : K) :
    (densityInit lo hi c B x0).GInv lo hi c B [] where
  cnt := rfl
  mn := rfl
  mx := rfl
  cs := rfl
  nb := rfl
  clen := by simp [densityInit]
  cache := by simp
  before := fun _ => ⟨rfl, rfl⟩
  after := fun h => by simp at h; omega
  hist := fun h => by simp [densityInit] at h

theorem densityPush_g {lo hi : K} {c B : ℕ} (hB : ∀ a : K, fdiv a (B : K) = .val (a / (B : K)))
    {s : DensitySt K} {xs : List K} (x : K) (hE : EdgesOk lo hi c B (xs ++ [x]))
    (I : s.GInv lo hi c B xs) : ∃ s', densityPush s x = .val s' ∧ s'.GInv lo hi c B (xs ++ [x]) := by
  have hmn : minAssign ltb s.mn x = minRun ltb hi (xs ++ [x]) := by
    rw [I.mn]; simp [minRun]
  have hmx : maxAssign ltb s.mx x = maxRun ltb lo (xs ++ [x]) := by
    rw [I.mx]; simp [maxRun]
  unfold densityPush densityStep
  simp only [I.cs, I.nb, I.cnt]
  rcases lt_trichotomy (xs.length + 1) c with h | h | h
  · rw [if_pos h.le, setAt_lt (by rw [I.clen]; omega), Res.val_bind, if_neg h.ne, if_neg (by omega)]
    exact ⟨_, rfl, by simp, hmn, hmx, rfl, rfl, by simp [I.clen], cache_filling x I.clen h I.cache,
      fun _ => I.before (by omega), fun h' => by simp at h'; omega, by simp⟩
  · rw [if_pos h.le, setAt_lt (by rw [I.clen]; omega), Res.val_bind, if_pos h]
    have htake : (xs ++ [x]).take c = xs ++ [x] := List.take_of_length_le (by simp; omega)
    have e1 : minAssign ltb s.mn x = gMin hi c (xs ++ [x]) := by rw [hmn, gMin, htake]
    have e2 : maxAssign ltb s.mx x = gMax lo c (xs ++ [x]) := by rw [hmx, gMax, htake]
    set a := gMin hi c (xs ++ [x]) with ha
    set b := gMax lo c (xs ++ [x]) with hb
    rw [cache_full x I.clen h I.cache, (I.before (by omega)).1, ← gCount_nil B (gEdge a b B)]
    have m1 : fdiv a 1 = .val a := hE.mn
    have m2 : fdiv b 1 = .val b := hE.mx
    simp only [e1, e2, m1, m2, hB, Res.val_bind, Res.pure_eq]
    have := foldRes_gCount hE.good [] (xs ++ [x])
    rw [show binPositions B a ((b - a) / (B : K)) = tab (B + 2) (gEdge a b B) from rfl, this]
    refine ⟨_, rfl, ?_⟩
    refine ⟨by simp, e1.symm.trans hmn, e2.symm.trans hmx, rfl, rfl, by simp; omega, ?_, ?_, ?_, by simp⟩
    · rw [htake, List.take_of_length_le (le_refl _)]
    · intro h'; simp at h'; omega
    · intro _
      exact ⟨rfl, by simp⟩
  · have hcl : c ≤ xs.length := by omega
    have hg := hE.good
    rw [gMin_snoc x hcl, gMax_snoc x hcl] at hg
    rw [if_neg (by omega), Res.val_bind, if_neg (by omega), if_pos h, (I.after hcl).1, (I.after hcl).2,
      binAdd_gCount hg xs x]
    refine ⟨_, rfl, by simp, hmn, hmx, rfl, rfl, I.clen, ?_, fun h' => by simp at h'; omega, fun _ => ?_, by simp⟩
    · have h0 := I.cache
      rw [List.take_of_length_le (by rw [I.clen]; omega)] at h0
      rw [List.take_of_length_le (by rw [I.clen]; simp; omega), take_snoc_of_le x hcl]; exact h0
    · rw [gMin_snoc x hcl, gMax_snoc x hcl]
      exact ⟨rfl, rfl⟩

theorem DensitySt.GInv.len {lo hi : K} {c B : ℕ} {s : DensitySt K} {xs : List K}
    (I : s.GInv lo hi c B xs) : s.pos.length = B + 2 ∧ s.bins.length = B + 2 := by
  rcases Nat.lt_or_ge xs.length c with h | h
  · obtain ⟨h1, h2⟩ := I.before h
    rw [h1, h2]; simp
  · obtain ⟨h1, h2⟩ := I.after h
    rw [h1, h2]; simp

theorem densityQuery_g {lo hi : K} {c B : ℕ} {s : DensitySt K} {xs : List K} (I : s.GInv lo hi c B xs) :
    ∃ s', densityQuery s = .val (s', tab (B + 2) fun i =>
        ((s.pos[i]?).getD 0, fdiv ((s.bins[i]?).getD 0) (s.cnt : K))) ∧ s'.GInv lo hi c B xs := by
  have key : mapRes (fun i => do
        let p ← getAt s.pos i
        let b ← getAt s.bins i
        pure (p, fdiv b (s.cnt : K))) (List.range (s.numBins + 2)) = .val (tab (B + 2) fun i =>
        ((s.pos[i]?).getD 0, fdiv ((s.bins[i]?).getD 0) (s.cnt : K))) := by
    rw [I.nb, mapRes_val]
    · rfl
    · intro i hi
      have hi := List.mem_range.1 hi
      have i1 : i < s.pos.length := by rw [I.len.1]; exact hi
      have i2 : i < s.bins.length := by rw [I.len.2]; exact hi
      simp [getAt_lt i1, getAt_lt i2, i1, i2]
  by_cases hd : s.dirty = true
  · unfold densityQuery
    rw [if_pos hd, key]
    refine ⟨_, rfl, I.cnt, I.mn, I.mx, I.cs, I.nb, I.clen, I.cache, I.before, I.after, fun _ => ?_⟩
    exact ⟨_, by unfold densityQuery; rw [if_pos rfl, key]; rfl⟩
  · obtain ⟨s', h⟩ := I.hist (by simpa using hd)
    unfold densityQuery at h ⊢
    rw [if_pos rfl, key] at h
    rw [if_neg hd]
    refine ⟨s, ?_, I⟩
    simp only [Res.val_bind, Res.pure_eq, Res.val.injEq, Prod.mk.injEq] at h
    rw [h.2]
    rfl

theorem density_g {lo hi : K} {c B : ℕ} (hB : ∀ a : K, fdiv a (B : K) = .val (a / (B : K))) (hc : 0 < c) (x0 : K)
    (P : K → Prop) (hE : ∀ xs : List K, xs ≠ [] → (∀ x ∈ xs, P x) → EdgesOk lo hi c B xs) (h : List (Op K Unit))
    (hP : ∀ x ∈ pushes h, P x) :
    ∃ s, (densitySet lo hi c B x0).exec (densityInit lo hi c B x0) h = .val s ∧ s.GInv lo hi c B (pushes h) := by
  have := exec_inv_mem (densitySet lo hi c B x0) (fun s xs => s.GInv lo hi c B xs) P
    (fun s xs x hp I => densityPush_g hB x (hE _ (by simp) hp) I)
    (fun s ps q I => by
      obtain ⟨s', e, I'⟩ := densityQuery_g I
      exact ⟨s', _, e, I'⟩) h _ [] (densityInit_g lo hi hc x0) (by simpa using hP)
  simpa using this

end

/-! ## The edges -/

section
variable {K : Type} [Field K] [LinearOrder K] [IsStrictOrderedRing K] {F : Fmt K}

namespace Ext

theorem le_def (a b : Ext F) : a ≤ b ↔ le a b = true := Iff.rfl
@[simp] theorem not_le_nan (a : Ext F) : ¬ a ≤ nan := by rw [le_def]; cases a <;> simp [le]
@[simp] theorem not_nan_le (a : Ext F) : ¬ nan ≤ a := by rw [le_def]; cases a <;> simp [le]

theorem lt_of_lt_le {x a b : Ext F} (h1 : x < a) (h2 : a ≤ b) : x < b := by
  rw [lt_def] at *
  rw [le_def] at h2
  cases x <;> cases a <;> cases b <;> simp_all [lt, le]
  exact lt_of_lt_of_le h1 h2

theorem le_of_le_le {x a b : Ext F} (h1 : x ≤ a) (h2 : a ≤ b) : x ≤ b := by
  rw [le_def] at *
  cases x <;> cases a <;> cases b <;> simp_all [le]
  exact le_trans h1 h2

theorem le_of_not_lt {a b : Ext F} (ha : a ≠ nan) (hb : b ≠ nan) (h : ¬ a < b) : b ≤ a := by
  rw [lt_def] at h
  rw [le_def]
  cases a <;> cases b <;> simp_all [lt, le]

theorem lt_of_not_le {a b : Ext F} (ha : a ≠ nan) (hb : b ≠ nan) (h : ¬ a ≤ b) : b < a := by
  rw [le_def] at h
  rw [lt_def]
  cases a <;> cases b <;> simp_all [lt, le]

theorem of_ne_nan (x : K) : of F x ≠ nan := by
  unfold of
  split_ifs <;> simp

/-- Rounding with overflow is monotone. -/
theorem of_mono {x y : K} (h : x ≤ y) : of F x ≤ of F y := by
  have hm := F.mono h
  have n1 : F.huge (F.rd x) = true → F.huge (F.rd y) = true := F.huge_mono _ _ hm
  have n2 : F.huge (-F.rd y) = true → F.huge (-F.rd x) = true := F.huge_mono _ _ (by linarith)
  have n3 : ¬ (F.huge (F.rd y) = true ∧ F.huge (-F.rd y) = true) := by
    rintro ⟨a, b⟩
    rcases le_total 0 (F.rd y) with c | c
    · have := F.huge_mono _ _ (show -F.rd y ≤ 0 by linarith) b
      rw [F.huge_zero] at this
      simp at this
    · have := F.huge_mono _ _ c a
      rw [F.huge_zero] at this
      simp at this
  rw [le_def]
  unfold of
  split_ifs <;> simp_all [le]

theorem fin_add_of_mono (m : K) {x y : K} (h : x ≤ y) : fin m + of F x ≤ fin m + of F y := by
  have h1 := of_mono (F := F) h
  have nx := of_ne_nan (F := F) x
  have ny := of_ne_nan (F := F) y
  revert h1 nx ny
  rw [add_def, add_def]
  generalize of F x = a
  generalize of F y = b
  intro h1 na nb
  rw [le_def] at h1
  cases a <;> cases b <;> simp_all [add, le]
  · exact of_mono (by linarith)
  · rename_i a
    rw [le_def]
    generalize e : of F (m + a) = z
    have : z ≠ nan := e ▸ of_ne_nan _
    cases z <;> simp_all [le]
  · rw [le_def]; rfl
  · rename_i a
    rw [le_def]
    generalize e : of F (m + a) = z
    have : z ≠ nan := e ▸ of_ne_nan _
    cases z <;> simp_all [le]
  · rw [le_def]; rfl
  · rw [le_def]; rfl

theorem fin_add_of_ne_nan (m x : K) : (fin m + of F x : Ext F) ≠ nan := by
  have nx := of_ne_nan (F := F) x
  revert nx
  rw [add_def]
  generalize of F x = a
  intro na
  cases a <;> simp_all [add]
  exact of_ne_nan _

/-- The factor `i - 1` of the bin size. -/
theorem factor_spec {B : ℕ} (hB : F.huge (F.rd ((B + 1 : ℕ) : K)) = false) :
    ∃ f : ℕ → K, (∀ i ≤ B + 1, (i : Ext F) - 1 = fin (f i)) ∧ Monotone f ∧ f 0 = -1 ∧ f 1 = 0 ∧ ∀ i, 2 ≤ i → 1 ≤ f i := by
  have hneg : ∀ y : K, -1 ≤ y → F.huge (-y) = false := by
    intro y hy
    by_contra hc
    have := F.huge_mono (-y) 1 (by linarith) (by simpa using hc)
    rw [F.huge_one] at this
    simp at this
  have r1 : F.rd (-1) = -1 := F.neg _ F.one
  refine ⟨fun i => F.rd (F.rd (i : K) - 1), ?_, ?_, ?_, ?_, ?_⟩
  · intro i hi
    have hle : F.rd (i : K) ≤ F.rd ((B + 1 : ℕ) : K) := F.mono (Nat.cast_le.2 hi)
    have hh : F.huge (F.rd (i : K)) = false := by
      by_contra hc
      have := F.huge_mono _ _ hle (by simpa using hc)
      rw [hB] at this
      simp at this
    have hn : 0 ≤ F.rd (i : K) := F.toRounding.nonneg (Nat.cast_nonneg _)
    have e1 : (i : Ext F) = fin (F.rd (i : K)) := by
      rw [natCast_def, of, if_neg (by simp [hh]), if_neg (by simp [hneg _ (by linarith : -1 ≤ F.rd (i : K))])]
    have hm : -1 ≤ F.rd (F.rd (i : K) - 1) := by
      have := F.mono (show (-1 : K) ≤ F.rd (i : K) - 1 by linarith)
      rwa [r1] at this
    have hh2 : F.huge (F.rd (F.rd (i : K) - 1)) = false := by
      by_contra hc
      have h2 : F.rd (F.rd (i : K) - 1) ≤ F.rd (i : K) := by
        have := F.mono (show F.rd (i : K) - 1 ≤ F.rd (i : K) by linarith)
        rwa [F.idem] at this
      have := F.huge_mono _ _ h2 (by simpa using hc)
      rw [hh] at this
      simp at this
    rw [e1, one_def, sub_def, sub, of, if_neg (by simp [hh2]), if_neg (by simp [hneg _ hm])]
  · intro i j hij
    apply F.mono
    have := F.mono (Nat.cast_le (α := K).2 hij)
    linarith
  · simp only [Nat.cast_zero, F.zero, zero_sub, r1]
  · simp only [Nat.cast_one, F.one, sub_self, F.zero]
  · intro i hi
    have h2 : (2 : K) ≤ F.rd (i : K) := by
      have := F.mono (show (2 : K) ≤ (i : K) by exact_mod_cast hi)
      rwa [F.two] at this
    have := F.mono (show (1 : K) ≤ F.rd (i : K) - 1 by linarith)
    rwa [F.one] at this

theorem natCast_fin {B : ℕ} (hB0 : 0 < B) (hB : F.huge (F.rd ((B + 1 : ℕ) : K)) = false) :
    ∃ b : K, 1 ≤ b ∧ (B : Ext F) = fin b := by
  rcases natCast_pos (F := F) hB0.ne' with ⟨c, hc, e⟩ | e
  · exact ⟨c, hc, e⟩
  · exfalso
    rw [natCast_def, of] at e
    split_ifs at e with h
    have := F.huge_mono _ _ (F.mono (show (B : K) ≤ ((B + 1 : ℕ) : K) by push_cast; linarith)) h
    rw [hB] at this
    simp at this

theorem infSign_pos {a : K} (h : 0 < a) : (infSign a : Ext F) = pinf := if_pos h
theorem infSign_neg {a : K} (h : a < 0) : (infSign a : Ext F) = ninf := by
  rw [infSign, if_neg (not_lt.2 h.le), if_pos h]
theorem infSign_zero : (infSign 0 : Ext F) = nan := by simp [infSign]

end Ext

/-- The edges when the bin size is infinite. -/
theorem gEdge_inf {a b : Ext F} {B : ℕ} (hB : F.huge (F.rd ((B + 1 : ℕ) : K)) = false) (hsz : (b - a) / (B : Ext F) = pinf) :
    gEdge a b B 0 = a + ninf ∧ gEdge a b B 1 = nan ∧ ∀ i, 2 ≤ i → i ≤ B + 1 → gEdge a b B i = a + pinf := by
  obtain ⟨f, hf, -, f0, f1, f2⟩ := factor_spec hB
  unfold gEdge
  rw [hsz]
  refine ⟨?_, ?_, fun i h2 hi => ?_⟩
  · rw [hf 0 (by omega), f0, mul_def, mul, infSign_neg (by linarith)]
  · rw [hf 1 (by omega), f1, mul_def, mul, infSign_zero, add_nan]
  · rw [hf i hi, mul_def, mul, infSign_pos (by linarith [f2 i h2])]

theorem gEdge_ninf {a b : Ext F} {B : ℕ} (hB : F.huge (F.rd ((B + 1 : ℕ) : K)) = false) (hsz : (b - a) / (B : Ext F) = ninf) :
    gEdge a b B 0 = a + pinf ∧ gEdge a b B 1 = nan ∧ ∀ i, 2 ≤ i → i ≤ B + 1 → gEdge a b B i = a + ninf := by
  obtain ⟨f, hf, -, f0, f1, f2⟩ := factor_spec hB
  unfold gEdge
  rw [hsz]
  refine ⟨?_, ?_, fun i h2 hi => ?_⟩
  · rw [hf 0 (by omega), f0, mul_def, mul, infSign_pos (by linarith)]
  · rw [hf 1 (by omega), f1, mul_def, mul, neg_zero, infSign_zero, add_nan]
  · rw [hf i hi, mul_def, mul, infSign_neg (by linarith [f2 i h2])]

/-- The bin size. -/
theorem binSize_cases {a b : Ext F} {B : ℕ} (hB0 : 0 < B) (hB : F.huge (F.rd ((B + 1 : ℕ) : K)) = false)
    (ha : a = ninf ∨ ∃ m, a = fin m) (hb : b = pinf ∨ ∃ m, b = fin m) :
    (b - a) / (B : Ext F) = pinf ∨
      ∃ m, a = fin m ∧ ((b - a) / (B : Ext F) = ninf ∨ ∃ s, (b - a) / (B : Ext F) = fin s) := by
  obtain ⟨n, hn, e⟩ := natCast_fin hB0 hB
  have hn' : ¬ n < 0 := by linarith
  have hn0 : n ≠ 0 := by linarith
  rw [e]
  rcases ha with rfl | ⟨m, rfl⟩
  · left
    rcases hb with rfl | ⟨m', rfl⟩
    · show div pinf (fin n) = pinf
      simp [div, hn']
    · show div pinf (fin n) = pinf
      simp [div, hn']
  · rcases hb with rfl | ⟨m', rfl⟩
    · left
      show div pinf (fin n) = pinf
      simp [div, hn']
    · rw [sub_def, sub]
      have nn := of_ne_nan (F := F) (m' - m)
      revert nn
      generalize of F (m' - m) = z
      intro nn
      rw [div_def]
      cases z with
      | fin t =>
        rw [div, if_neg hn0]
        have nn := of_ne_nan (F := F) (t / n)
        revert nn
        generalize of F (t / n) = y
        intro nn
        cases y <;> simp_all
      | pinf => left; simp [div, hn']
      | ninf => right; exact ⟨m, rfl, .inl (by simp [div, hn'])⟩
      | nan => exact absurd rfl nn

/-- Whatever the samples, the edges satisfy the precondition of `std::upper_bound`. -/
theorem goodEdges_ext {a b : Ext F} {B : ℕ} (hB0 : 0 < B) (hB : F.huge (F.rd ((B + 1 : ℕ) : K)) = false)
    (ha : a = ninf ∨ ∃ m, a = fin m) (hb : b = pinf ∨ ∃ m, b = fin m) : GoodEdges B (gEdge a b B) := by
  intro x h1 h2
  by_cases hx : x = nan
  · subst hx
    exact ⟨B + 2, by omega, le_rfl, fun i _ => not_nan_lt _, fun i hi hi' => by omega⟩
  rcases binSize_cases hB0 hB ha hb with hs | ⟨m, rfl, hs | ⟨s, hs⟩⟩
  · obtain ⟨e0, e1, e2⟩ := gEdge_inf hB hs
    have x0 : ¬ x < gEdge a b B 0 := by
      rw [e0, lt_def]
      rcases ha with rfl | ⟨m, rfl⟩ <;> (rw [add_def]; cases x <;> simp [add, lt])
    have x1 : ¬ x < gEdge a b B 1 := by rw [e1]; exact not_lt_nan _
    by_cases c : x < a + pinf
    · refine ⟨2, by omega, by omega, fun i hi => ?_, fun i hi hi' => ?_⟩
      · obtain rfl | rfl : i = 0 ∨ i = 1 := by omega
        · exact x0
        · exact x1
      · rw [e2 i hi (by omega)]; exact c
    · refine ⟨B + 2, by omega, le_rfl, fun i hi => ?_, fun i hi hi' => by omega⟩
      rcases Nat.lt_or_ge i 2 with h | h
      · obtain rfl | rfl : i = 0 ∨ i = 1 := by omega
        · exact x0
        · exact x1
      · rw [e2 i h (by omega)]; exact c
  · obtain ⟨-, -, e2⟩ := gEdge_ninf hB hs
    exfalso
    apply h2
    rw [e2 (B + 1) (by omega) le_rfl, le_def, add_def]
    cases x <;> simp_all [add, le]
  · obtain ⟨f, hf, hm, -, -, -⟩ := factor_spec hB
    have e : ∀ i ≤ B + 1, gEdge (fin m) b B i = fin m + of F (f i * s) := by
      intro i hi
      unfold gEdge
      rw [hs, hf i hi]
      rfl
    have en : ∀ i ≤ B + 1, gEdge (fin m) b B i ≠ nan := by
      intro i hi
      rw [e i hi]
      exact fin_add_of_ne_nan m _
    rcases le_total 0 s with c | c
    · have mono : ∀ i j, i ≤ j → j ≤ B + 1 → gEdge (fin m) b B i ≤ gEdge (fin m) b B j := by
        intro i j hij hj
        rw [e i (by omega), e j hj]
        exact fin_add_of_mono m (mul_le_mul_of_nonneg_right (hm hij) c)
      have hl := lt_of_not_le (en _ le_rfl) hx h2
      have hex : ∃ i, x < gEdge (fin m) b B i := ⟨_, hl⟩
      classical
      refine ⟨Nat.find hex, ?_, (Nat.find_le hl).trans (by omega), fun i hi => Nat.find_min hex hi, fun i hi hi' =>
        lt_of_lt_le (Nat.find_spec hex) (mono _ _ hi (by omega))⟩
      by_contra hc
      have h0 := Nat.find_spec hex
      rw [show Nat.find hex = 0 by omega] at h0
      exact h1 (lt_of_lt_le h0 (mono 0 1 (by omega) (by omega)))
    · exfalso
      apply h2
      have h3 := le_of_not_lt hx (en 1 (by omega)) h1
      refine le_of_le_le ?_ h3
      rw [e _ le_rfl, e 1 (by omega)]
      exact fin_add_of_mono m (mul_le_mul_of_nonpos_right (hm (by omega)) c)

/-- A number of the format: samples and weights are. -/
def Ext.Rep : Ext F → Prop
  | fin a => F.rd a = a ∧ F.huge a = false ∧ F.huge (-a) = false
  | _ => True

theorem of_rep {a : K} (h : Ext.Rep (fin a : Ext F)) : of F a = fin a := by
  obtain ⟨h1, h2, h3⟩ := h
  rw [of, h1, if_neg (by simp [h2]), if_neg (by simp [h3])]

theorem fdiv_one_rep {a : Ext F} (h : Ext.Rep a) : fdiv a 1 = .val a := by
  have : (1 : Ext F) ≠ 0 := by
    rw [one_def, zero_def]
    intro h
    exact one_ne_zero (Ext.fin.inj h)
  rw [fdiv, if_neg this, one_def, div_def]
  cases a with
  | fin a => rw [div, if_neg one_ne_zero, div_one, of_rep h]
  | pinf => simp [div, not_lt.2 (zero_le_one (α := K))]
  | ninf => simp [div, not_lt.2 (zero_le_one (α := K))]
  | nan => rfl

theorem minRun_cases {M : K} (hM : Ext.Rep (fin M : Ext F)) (xs : List (Ext F)) (hx : ∀ x ∈ xs, Ext.Rep x) :
    Ext.Rep (minRun ltb (fin M) xs) ∧ (minRun ltb (fin M) xs = ninf ∨ ∃ m, minRun ltb (fin M) xs = fin m) := by
  induction xs using List.reverseRecOn with
  | nil => exact ⟨hM, .inr ⟨M, rfl⟩⟩
  | append_singleton xs x ih =>
    obtain ⟨r, c⟩ := ih fun y hy => hx y (by simp [hy])
    have hxr := hx x (by simp)
    rw [minRun, List.foldl_append]
    change Ext.Rep (minAssign ltb (minRun ltb (fin M) xs) x) ∧ _
    change _ ∧ (minAssign ltb (minRun ltb (fin M) xs) x = ninf ∨ ∃ m, minAssign ltb (minRun ltb (fin M) xs) x = fin m)
    revert r c
    generalize minRun ltb (fin M) xs = z
    intro r c
    unfold minAssign ltb
    by_cases h : x < z
    · rw [if_pos (by simpa using h)]
      refine ⟨hxr, ?_⟩
      rw [lt_def] at h
      rcases c with rfl | ⟨m, rfl⟩ <;> cases x <;> simp_all [lt]
    · rw [if_neg (by simpa using h)]
      exact ⟨r, c⟩

theorem maxRun_cases {M : K} (hM : Ext.Rep (fin M : Ext F)) (xs : List (Ext F)) (hx : ∀ x ∈ xs, Ext.Rep x) :
    Ext.Rep (maxRun ltb (fin M) xs) ∧ (maxRun ltb (fin M) xs = pinf ∨ ∃ m, maxRun ltb (fin M) xs = fin m) := by
  induction xs using List.reverseRecOn with
  | nil => exact ⟨hM, .inr ⟨M, rfl⟩⟩
  | append_singleton xs x ih =>
    obtain ⟨r, c⟩ := ih fun y hy => hx y (by simp [hy])
    have hxr := hx x (by simp)
    rw [maxRun, List.foldl_append]
    change Ext.Rep (maxAssign ltb (maxRun ltb (fin M) xs) x) ∧ _
    change _ ∧ (maxAssign ltb (maxRun ltb (fin M) xs) x = pinf ∨ ∃ m, maxAssign ltb (maxRun ltb (fin M) xs) x = fin m)
    revert r c
    generalize maxRun ltb (fin M) xs = z
    intro r c
    unfold maxAssign ltb
    by_cases h : z < x
    · rw [if_pos (by simpa using h)]
      refine ⟨hxr, ?_⟩
      rw [lt_def] at h
      rcases c with rfl | ⟨m, rfl⟩ <;> cases x <;> simp_all [lt]
    · rw [if_neg (by simpa using h)]
      exact ⟨r, c⟩

theorem edgesOk_ext {M : K} (hM : Ext.Rep (fin M : Ext F)) {c B : ℕ} (hB0 : 0 < B)
    (hB : F.huge (F.rd ((B + 1 : ℕ) : K)) = false) (xs : List (Ext F)) (hx : ∀ x ∈ xs, Ext.Rep x) :
    EdgesOk (fin (-M)) (fin M) c B xs := by
  have hM' : Ext.Rep (fin (-M) : Ext F) := ⟨F.neg _ hM.1, hM.2.2, by rw [neg_neg]; exact hM.2.1⟩
  have ht : ∀ x ∈ xs.take c, Ext.Rep x := fun x h => hx x (List.mem_of_mem_take h)
  obtain ⟨r1, c1⟩ := minRun_cases hM _ ht
  obtain ⟨r2, c2⟩ := maxRun_cases hM' _ ht
  exact ⟨fdiv_one_rep r1, fdiv_one_rep r2, goodEdges_ext hB0 hB c1 c2⟩

theorem fdiv_bins {B : ℕ} (hB : 0 < B) (a : Ext F) : fdiv a (B : Ext F) = .val (a / (B : Ext F)) :=
  if_neg (natCast_ne hB.ne')

/-- What bin a sample is counted in. -/
structure IsBin (B : ℕ) (E : ℕ → Ext F) (bin : Ext F → ℕ) : Prop where
  le : ∀ x, bin x ≤ B + 1
  nan : bin nan = B + 1
  below : ∀ x, x < E 1 → bin x = 0
  above : ∀ x, ¬ x < E 1 → E (B + 1) ≤ x → bin x = B + 1
  between : ∀ x, ¬ x < E 1 → ¬ E (B + 1) ≤ x → ∀ i ≤ B + 1, x < E i ↔ bin x < i

theorem isBin_binC {B : ℕ} {E : ℕ → Ext F} (hE : GoodEdges B E) : IsBin B E (binC B E) where
  le x := (binC_spec hE x).1
  nan := by
    have h := binC_spec hE nan
    have := (h.2.2.2.1 (not_nan_lt _) (not_le_nan _) (B + 1) le_rfl).not.1 (not_nan_lt _)
    omega
  below x := (binC_spec hE x).2.1
  above x := (binC_spec hE x).2.2.1
  between x := (binC_spec hE x).2.2.2.1

theorem foldl_count {A : Type} (l : List A) {n : ℕ} (hl : l.length ≤ n)
    (hN : ∀ k ≤ n, F.rd (k : K) = k ∧ F.huge (k : K) = false) :
    l.foldl (fun b _ => b + 1) (0 : Ext F) = fin (l.length : K) := by
  induction l using List.reverseRecOn with
  | nil => simp [zero_def]
  | append_singleton l a ih =>
    simp only [List.length_append, List.length_singleton] at hl
    rw [List.foldl_append, ih (by omega)]
    obtain ⟨h1, h2⟩ := hN (l.length + 1) hl
    have h3 : F.huge (-((l.length + 1 : ℕ) : K)) = false := by
      by_contra hc
      have := F.huge_mono (-((l.length + 1 : ℕ) : K)) 0 (by push_cast; linarith [(Nat.cast_nonneg l.length : (0 : K) ≤ l.length)]) (by simpa using hc)
      rw [F.huge_zero] at this
      simp at this
    show (fin (l.length : K) + 1 : Ext F) = _
    rw [one_def, add_def, add, ← Nat.cast_one, ← Nat.cast_add, of_rep ⟨h1, h2, h3⟩, List.length_append,
      List.length_singleton]

theorem sum_countP_bins {A : Type} {B : ℕ} {bin : A → ℕ} (hle : ∀ x, bin x ≤ B + 1) (xs : List A) :
    ((List.range (B + 2)).map fun i => xs.countP fun x => decide (bin x = i)).sum = xs.length := by
  rw [sum_range_eq]
  induction xs with
  | nil => simp
  | cons x xs ih =>
    simp only [List.countP_cons, Finset.sum_add_distrib, List.length_cons]
    rw [ih]
    congr 1
    have := hle x
    rw [Finset.sum_eq_single (bin x)]
    · simp
    · intro b _ hb
      simp [Ne.symm hb]
    · intro hn
      simp at hn
      omega

/-- **C87** `density` with any samples, infinite and NaN ones included: nothing is undefined, and once the cache is full
every sample is counted in exactly one bin, which depends on the sample and the edges only; NaN is counted in the last
(overflow) bin. -/
theorem C87_density {M : K} (hM : Ext.Rep (fin M : Ext F)) {c B : ℕ} (hc : 0 < c) (hB0 : 0 < B)
    (hB : F.huge (F.rd ((B + 1 : ℕ) : K)) = false) (x0 : Ext F) (h : List (Op (Ext F) Unit))
    (hx : ∀ x ∈ pushes h, Ext.Rep x) (hN : ∀ k ≤ (pushes h).length, F.rd (k : K) = k ∧ F.huge (k : K) = false)
    (hfull : c ≤ (pushes h).length) :
    ∃ (E : ℕ → Ext F) (bin : Ext F → ℕ),
      (densitySet (fin (-M)) (fin M) c B x0).answer h () = .val ((List.range (B + 2)).map fun i =>
        (E i, .val (of F (((pushes h).countP fun x => decide (bin x = i) : ℕ) / ((pushes h).length : K))))) ∧
      IsBin B E bin ∧
      (∀ i, E i = minRun ltb (fin M) ((pushes h).take c) + ((i : Ext F) - 1) *
        ((maxRun ltb (fin (-M)) ((pushes h).take c) - minRun ltb (fin M) ((pushes h).take c)) / (B : Ext F))) ∧
      ((List.range (B + 2)).map fun i => (pushes h).countP fun x => decide (bin x = i)).sum = (pushes h).length := by
  have hE : ∀ xs : List (Ext F), xs ≠ [] → (∀ x ∈ xs, Ext.Rep x) → EdgesOk (fin (-M)) (fin M) c B xs :=
    fun xs _ => edgesOk_ext hM hB0 hB xs
  obtain ⟨s, e, I⟩ := density_g (fdiv_bins hB0) hc x0 Ext.Rep hE h hx
  have hne : pushes h ≠ [] := by
    intro h0
    rw [h0] at hfull
    simp at hfull
    omega
  have hg := (hE _ hne hx).good
  obtain ⟨hpos, hbins⟩ := I.after hfull
  refine ⟨_, _, ?_, isBin_binC hg, fun i => rfl, ?_⟩
  · obtain ⟨s', e', _⟩ := densityQuery_g I
    unfold RMachine.answer
    change ((densitySet (fin (-M)) (fin M) c B x0).exec (densityInit (fin (-M)) (fin M) c B x0) h >>=
      fun s => densityQuery s >>= _) = _
    rw [e, Res.val_bind, e', Res.val_bind, Res.pure_eq, hpos, hbins, I.cnt]
    congr 1
    unfold tab
    apply List.map_congr_left
    intro i hi
    have hi := List.mem_range.1 hi
    simp only [List.getElem?_map, List.getElem?_range hi, Option.map_some, Option.getD_some]
    have hlen : 0 < (pushes h).length := by omega
    obtain ⟨n1, n2⟩ := hN _ le_rfl
    have hpos' : (0 : K) < ((pushes h).length : K) := by exact_mod_cast hlen
    have n3 : F.huge (-((pushes h).length : K)) = false := by
      by_contra hc
      have := F.huge_mono (-((pushes h).length : K)) 0 (by linarith) (by simpa using hc)
      rw [F.huge_zero] at this
      simp at this
    unfold gCount
    rw [foldl_count _ (List.length_filter_le _ _) hN, natCast_def, of_rep ⟨n1, n2, n3⟩, fdiv, if_neg (by
      rw [zero_def]
      intro h0
      exact hpos'.ne' (Ext.fin.inj h0)), div_def, div, if_neg hpos'.ne', List.countP_eq_length_filter]
  · exact sum_countP_bins (isBin_binC hg).le _

/-- **C87** `weighted_density` with any samples and any weights. -/
theorem C87_weighted_density {M : K} (hM : Ext.Rep (fin M : Ext F)) {c B : ℕ} (hc : 0 < c) (hB0 : 0 < B)
    (hB : F.huge (F.rd ((B + 1 : ℕ) : K)) = false) (x0 : Ext F) (h : List (Op (Ext F × Ext F) Unit))
    (hx : ∀ p ∈ pushes h, Ext.Rep p.1) (hfull : c ≤ (pushes h).length) :
    ∃ (E : ℕ → Ext F) (bin : Ext F → ℕ),
      (wdensitySet (fin (-M)) (fin M) c B x0).answer h () = .val ((List.range (B + 2)).map fun i =>
        (E i, fdiv ((((pushes h).filter fun p => decide (bin p.1 = i)).map Prod.snd).foldl (· + ·) 0)
          (((pushes h).map Prod.snd).foldl (· + ·) 0))) ∧
      IsBin B E bin ∧
      (∀ i, E i = minRun ltb (fin M) (((pushes h).map Prod.fst).take c) + ((i : Ext F) - 1) *
        ((maxRun ltb (fin (-M)) (((pushes h).map Prod.fst).take c) -
          minRun ltb (fin M) (((pushes h).map Prod.fst).take c)) / (B : Ext F))) := by
  have hE : ∀ xs : List (Ext F), xs ≠ [] → (∀ x ∈ xs, Ext.Rep x) → EdgesOk (fin (-M)) (fin M) c B xs :=
    fun xs _ => edgesOk_ext hM hB0 hB xs
  obtain ⟨s, e, I⟩ := wdensity_g (fdiv_bins hB0) hc x0 Ext.Rep hE h hx
  have hne : (pushes h).map Prod.fst ≠ [] := by
    intro h0
    rw [List.map_eq_nil_iff] at h0
    rw [h0] at hfull
    simp at hfull
    omega
  have hg := (hE _ hne (List.forall_mem_map.2 hx)).good
  obtain ⟨hpos, hbins⟩ := I.after hfull
  refine ⟨_, _, ?_, isBin_binC hg, fun i => rfl⟩
  obtain ⟨s', e', _⟩ := wdensityQuery_g I
  unfold RMachine.answer
  change ((wdensitySet (fin (-M)) (fin M) c B x0).exec (wdensityInit (fin (-M)) (fin M) c B x0) h >>=
    fun s => wdensityQuery s >>= _) = _
  rw [e, Res.val_bind, e', Res.val_bind, Res.pure_eq, hpos, hbins, I.wsum]
  congr 1
  unfold tab
  apply List.map_congr_left
  intro i hi
  have hi := List.mem_range.1 hi
  simp only [List.getElem?_map, List.getElem?_range hi, Option.map_some, Option.getD_some]
  rfl

theorem maxRun_pinf {z : Ext F} (hz : z ≠ nan) {xs : List (Ext F)} (h : pinf ∈ xs) : maxRun ltb z xs = pinf := by
  have key : ∀ (xs : List (Ext F)) (z : Ext F), z ≠ nan →
      maxRun ltb z xs ≠ nan ∧ (z = pinf ∨ pinf ∈ xs → maxRun ltb z xs = pinf) := by
    intro xs
    induction xs with
    | nil => intro z hz; exact ⟨hz, fun h => by simpa [maxRun] using h⟩
    | cons x xs ih =>
      intro z hz
      have e : maxRun ltb z (x :: xs) = maxRun ltb (maxAssign ltb z x) xs := rfl
      rw [e]
      unfold maxAssign
      by_cases h : z < x
      · have hx : x ≠ nan := by
          rintro rfl
          exact not_lt_nan _ h
        rw [if_pos (by simpa [ltb] using h)]
        refine ⟨(ih x hx).1, fun hc => (ih x hx).2 ?_⟩
        rcases hc with rfl | hc
        · rw [lt_def] at h
          cases x <;> simp_all [lt]
        · simp only [List.mem_cons] at hc
          exact hc.imp Eq.symm id
      · rw [if_neg (by simpa [ltb] using h)]
        refine ⟨(ih z hz).1, fun hc => (ih z hz).2 ?_⟩
        rcases hc with rfl | hc
        · exact .inl rfl
        · simp only [List.mem_cons] at hc
          rcases hc with rfl | hc
          · left
            rw [lt_def] at h
            cases z <;> simp_all [lt]
          · exact .inr hc
  exact (key xs z hz).2 (.inr h)

theorem minRun_ninf {z : Ext F} (hz : z ≠ nan) {xs : List (Ext F)} (h : ninf ∈ xs) : minRun ltb z xs = ninf := by
  have key : ∀ (xs : List (Ext F)) (z : Ext F), z ≠ nan →
      minRun ltb z xs ≠ nan ∧ (z = ninf ∨ ninf ∈ xs → minRun ltb z xs = ninf) := by
    intro xs
    induction xs with
    | nil => intro z hz; exact ⟨hz, fun h => by simpa [minRun] using h⟩
    | cons x xs ih =>
      intro z hz
      have e : minRun ltb z (x :: xs) = minRun ltb (minAssign ltb z x) xs := rfl
      rw [e]
      unfold minAssign
      by_cases h : x < z
      · have hx : x ≠ nan := by
          rintro rfl
          exact not_nan_lt _ h
        rw [if_pos (by simpa [ltb] using h)]
        refine ⟨(ih x hx).1, fun hc => (ih x hx).2 ?_⟩
        rcases hc with rfl | hc
        · rw [lt_def] at h
          cases x <;> simp_all [lt]
        · simp only [List.mem_cons] at hc
          exact hc.imp Eq.symm id
      · rw [if_neg (by simpa [ltb] using h)]
        refine ⟨(ih z hz).1, fun hc => (ih z hz).2 ?_⟩
        rcases hc with rfl | hc
        · exact .inl rfl
        · simp only [List.mem_cons] at hc
          rcases hc with rfl | hc
          · left
            rw [lt_def] at h
            cases z <;> simp_all [lt]
          · exact .inr hc
  exact (key xs z hz).2 (.inr h)

theorem minRun_mem (z : Ext F) (xs : List (Ext F)) : minRun ltb z xs = z ∨ minRun ltb z xs ∈ xs := by
  induction xs generalizing z with
  | nil => exact .inl rfl
  | cons x xs ih =>
    have e : minRun ltb z (x :: xs) = minRun ltb (minAssign ltb z x) xs := rfl
    rw [e]
    unfold minAssign
    split
    · rcases ih x with h | h
      · rw [h]; exact .inr (by simp)
      · exact .inr (by simp [h])
    · rcases ih z with h | h
      · exact .inl h
      · exact .inr (by simp [h])

/-- The edges and bins when an infinite sample is cached. -/
theorem isBin_inf {m : K} {b : Ext F} (hr : b - fin m = pinf) {B : ℕ} (hB0 : 0 < B) (hB : F.huge (F.rd ((B + 1 : ℕ) : K)) = false) {E : ℕ → Ext F}
    {bin : Ext F → ℕ} (hbin : IsBin B E bin)
    (hE : ∀ i, E i = gEdge (fin m) b B i) :
    (∀ i ≤ B + 1, E i = if i = 0 then ninf else if i = 1 then nan else pinf) ∧
      ∀ x, bin x = if x = pinf ∨ x = nan then B + 1 else 1 := by
  obtain ⟨n, hn, e⟩ := natCast_fin hB0 hB
  have hs : (b - fin m) / (B : Ext F) = pinf := by
    rw [hr, e]
    show div pinf (fin n) = pinf
    simp [div, not_lt.2 (zero_le_one.trans hn)]
  obtain ⟨e0, e1, e2⟩ := gEdge_inf hB hs
  have hEi : ∀ i ≤ B + 1, E i = if i = 0 then ninf else if i = 1 then nan else pinf := by
    intro i hi
    rw [hE]
    by_cases h0 : i = 0
    · subst h0; rw [e0, if_pos rfl]; rfl
    · by_cases h1 : i = 1
      · subst h1; rw [e1, if_neg h0, if_pos rfl]
      · rw [e2 i (by omega) hi, if_neg h0, if_neg h1]; rfl
  refine ⟨hEi, fun x => ?_⟩
  have E1 : E 1 = nan := by rw [hEi 1 (by omega)]; simp
  have EB : E (B + 1) = pinf := by rw [hEi _ le_rfl, if_neg (by omega), if_neg (by omega)]
  have n1 : ¬ x < E 1 := by rw [E1]; exact not_lt_nan _
  by_cases c : x = pinf
  · subst c
    rw [if_pos (.inl rfl)]
    exact hbin.above _ n1 (by rw [EB]; rfl)
  · by_cases c' : x = nan
    · subst c'
      rw [if_pos (.inr rfl)]
      exact hbin.nan
    · rw [if_neg (by simp [c, c'])]
      have n2 : ¬ E (B + 1) ≤ x := by
        rw [EB, le_def]
        cases x <;> simp_all [le]
      have b := hbin.between x n1 n2
      have b1 := (b 1 (by omega)).not.1 n1
      have b2 := (b 2 (by omega)).1 (by
        rw [hEi 2 (by omega), if_neg (by omega), if_neg (by omega), lt_def]
        cases x <;> simp_all [lt])
      omega

theorem isBin_neginf {b : Ext F} (hb : b = pinf ∨ ∃ m, b = fin m) {B : ℕ} (hB0 : 0 < B)
    (hB : F.huge (F.rd ((B + 1 : ℕ) : K)) = false) {E : ℕ → Ext F} {bin : Ext F → ℕ} (hbin : IsBin B E bin)
    (hE : ∀ i, E i = gEdge ninf b B i) :
    (∀ i ≤ B + 1, E i = if i = 0 then ninf else nan) ∧ ∀ x, bin x = B + 1 := by
  obtain ⟨n, hn, e⟩ := natCast_fin hB0 hB
  have hs : (b - ninf) / (B : Ext F) = pinf := by
    rw [e]
    rcases hb with rfl | ⟨m, rfl⟩
    · show div pinf (fin n) = pinf
      simp [div, not_lt.2 (zero_le_one.trans hn)]
    · show div pinf (fin n) = pinf
      simp [div, not_lt.2 (zero_le_one.trans hn)]
  obtain ⟨e0, e1, e2⟩ := gEdge_inf hB hs
  have hEi : ∀ i ≤ B + 1, E i = if i = 0 then ninf else nan := by
    intro i hi
    rw [hE]
    by_cases h0 : i = 0
    · subst h0; rw [e0, if_pos rfl]; rfl
    · rw [if_neg h0]
      by_cases h1 : i = 1
      · subst h1; exact e1
      · rw [e2 i (by omega) hi]; rfl
  refine ⟨hEi, fun x => ?_⟩
  have n : ∀ i, i ≠ 0 → i ≤ B + 1 → E i = nan := fun i h0 hi => by rw [hEi i hi, if_neg h0]
  have n1 : ¬ x < E 1 := by rw [n 1 (by omega) (by omega)]; exact not_lt_nan _
  have n2 : ¬ E (B + 1) ≤ x := by rw [n _ (by omega) le_rfl]; exact not_nan_le _
  have b := (hbin.between x n1 n2 (B + 1) le_rfl).not.1 (by
    rw [n _ (by omega) le_rfl]; exact not_lt_nan _)
  have := hbin.le x
  omega

/-- **C87** The difference of the greatest and the least cached sample is `+inf` (overflow is enough) and `-inf` is not
cached: the histogram is one bin, with edge NaN, of all samples but the `+inf` and NaN ones, and the overflow bin. -/
theorem C87_infinite_range {M : K} (hM : Ext.Rep (fin M : Ext F)) {c B : ℕ} (hc : 0 < c) (hB0 : 0 < B)
    (hB : F.huge (F.rd ((B + 1 : ℕ) : K)) = false) (x0 : Ext F) (h : List (Op (Ext F) Unit))
    (hx : ∀ x ∈ pushes h, Ext.Rep x) (hN : ∀ k ≤ (pushes h).length, F.rd (k : K) = k ∧ F.huge (k : K) = false)
    (hfull : c ≤ (pushes h).length) (hn : ninf ∉ (pushes h).take c)
    (hp : maxRun ltb (fin (-M)) ((pushes h).take c) - minRun ltb (fin M) ((pushes h).take c) = pinf) :
    (densitySet (fin (-M)) (fin M) c B x0).answer h () = .val ((List.range (B + 2)).map fun i =>
      (if i = 0 then ninf else if i = 1 then nan else pinf,
        .val (of F ((if i = 0 then 0 else if i = 1 then (pushes h).countP fun x => decide (x ≠ pinf ∧ x ≠ nan)
          else if i = B + 1 then (pushes h).countP fun x => decide (x = pinf ∨ x = nan) else 0 : ℕ) /
            ((pushes h).length : K))))) := by
  obtain ⟨E, bin, e, hbin, hE, -⟩ := C87_density hM hc hB0 hB x0 h hx hN hfull
  have ht : ∀ x ∈ (pushes h).take c, Ext.Rep x := fun x h => hx x (List.mem_of_mem_take h)
  obtain ⟨m, hm⟩ : ∃ m, minRun ltb (fin M) ((pushes h).take c) = fin m := by
    rcases (minRun_cases hM _ ht).2 with k | k
    · exfalso
      rcases minRun_mem (fin M) ((pushes h).take c) with d | d
      · rw [k] at d; simp at d
      · rw [k] at d; exact hn d
    · exact k
  rw [hm] at hp
  rw [hm] at hE
  obtain ⟨h1, h2⟩ := isBin_inf hp hB0 hB hbin hE
  rw [e]
  congr 1
  apply List.map_congr_left
  intro i hi
  have hi := List.mem_range.1 hi
  rw [h1 i (by omega)]
  congr 4
  apply congrArg
  by_cases i0 : i = 0
  · subst i0
    rw [if_pos rfl]
    rw [List.countP_eq_zero]
    intro x _
    rw [h2 x]
    by_cases c : x = pinf ∨ x = nan <;> simp [c]
  · rw [if_neg i0]
    by_cases i1 : i = 1
    · subst i1
      rw [if_pos rfl]
      apply List.countP_congr
      intro x _
      rw [h2 x]
      by_cases c : x = pinf ∨ x = nan
      · simp only [c, if_true, decide_eq_true_eq]
        constructor
        · intro; omega
        · rintro ⟨c1, c2⟩; exact absurd c (by simp [c1, c2])
      · simp only [not_or] at c
        simp [c]
    · rw [if_neg i1]
      by_cases iB : i = B + 1
      · rw [if_pos iB]
        apply List.countP_congr
        intro x _
        rw [h2 x]
        by_cases c : x = pinf ∨ x = nan
        · simp [c, iB]
        · simp only [c, if_false, decide_eq_true_eq, iff_false]
          omega
      · rw [if_neg iB, List.countP_eq_zero]
        intro x _
        rw [h2 x]
        by_cases c : x = pinf ∨ x = nan
        · simp only [c, if_true, decide_eq_true_eq]; omega
        · simp only [c, if_false, decide_eq_true_eq]; omega

/-- **C87** `+inf` among the cached samples and `-inf` not. -/
theorem C87_pos_inf {M : K} (hM : Ext.Rep (fin M : Ext F)) {c B : ℕ} (hc : 0 < c) (hB0 : 0 < B)
    (hB : F.huge (F.rd ((B + 1 : ℕ) : K)) = false) (x0 : Ext F) (h : List (Op (Ext F) Unit))
    (hx : ∀ x ∈ pushes h, Ext.Rep x) (hN : ∀ k ≤ (pushes h).length, F.rd (k : K) = k ∧ F.huge (k : K) = false)
    (hfull : c ≤ (pushes h).length) (hp : pinf ∈ (pushes h).take c) (hn : ninf ∉ (pushes h).take c) :
    (densitySet (fin (-M)) (fin M) c B x0).answer h () = .val ((List.range (B + 2)).map fun i =>
      (if i = 0 then ninf else if i = 1 then nan else pinf,
        .val (of F ((if i = 0 then 0 else if i = 1 then (pushes h).countP fun x => decide (x ≠ pinf ∧ x ≠ nan)
          else if i = B + 1 then (pushes h).countP fun x => decide (x = pinf ∨ x = nan) else 0 : ℕ) /
            ((pushes h).length : K))))) := by
  refine C87_infinite_range hM hc hB0 hB x0 h hx hN hfull hn ?_
  have ht : ∀ x ∈ (pushes h).take c, Ext.Rep x := fun x h => hx x (List.mem_of_mem_take h)
  rw [maxRun_pinf (by simp) hp]
  rcases (minRun_cases hM _ ht).2 with k | ⟨m, k⟩ <;> rw [k] <;> rfl

/-- **C87** `-inf` among the cached samples: every sample is counted in the overflow bin, and all edges but the first are
NaN. -/
theorem C87_neg_inf {M : K} (hM : Ext.Rep (fin M : Ext F)) {c B : ℕ} (hc : 0 < c) (hB0 : 0 < B)
    (hB : F.huge (F.rd ((B + 1 : ℕ) : K)) = false) (x0 : Ext F) (h : List (Op (Ext F) Unit))
    (hx : ∀ x ∈ pushes h, Ext.Rep x) (hN : ∀ k ≤ (pushes h).length, F.rd (k : K) = k ∧ F.huge (k : K) = false)
    (hfull : c ≤ (pushes h).length) (hn : ninf ∈ (pushes h).take c) :
    (densitySet (fin (-M)) (fin M) c B x0).answer h () = .val ((List.range (B + 2)).map fun i =>
      (if i = 0 then ninf else nan, .val (if i = B + 1 then 1 else 0))) := by
  obtain ⟨E, bin, e, hbin, hE, -⟩ := C87_density hM hc hB0 hB x0 h hx hN hfull
  have ht : ∀ x ∈ (pushes h).take c, Ext.Rep x := fun x h => hx x (List.mem_of_mem_take h)
  have hM' : Ext.Rep (fin (-M) : Ext F) := ⟨F.neg _ hM.1, hM.2.2, by rw [neg_neg]; exact hM.2.1⟩
  rw [minRun_ninf (by simp) hn] at hE
  obtain ⟨h1, h2⟩ := isBin_neginf (maxRun_cases hM' _ ht).2 hB0 hB hbin hE
  rw [e]
  congr 1
  apply List.map_congr_left
  intro i hi
  have hi := List.mem_range.1 hi
  rw [h1 i (by omega)]
  have hl : ((pushes h).length : K) ≠ 0 := by
    have : 0 < (pushes h).length := by omega
    exact_mod_cast this.ne'
  congr 2
  simp only [h2]
  by_cases iB : i = B + 1
  · subst iB
    rw [if_pos rfl, List.countP_eq_length.2 (by simp), div_self hl, of_rep ⟨F.one, F.huge_one, ?_⟩, one_def]
    by_contra hc
    have := F.huge_mono (-1) 0 (by simp) (by simpa using hc)
    rw [F.huge_zero] at this
    simp at this
  · rw [if_neg iB, List.countP_eq_zero.2 (by simp; omega), Nat.cast_zero, zero_div,
      of_rep ⟨F.zero, F.huge_zero, by rw [neg_zero]; exact F.huge_zero⟩, zero_def]

end

/-! ## The hypotheses can be met -/

/-- `+inf` among the two cached samples. -/
example :
    (densitySet (fin (-1000) : Ex ℚ) (fin 1000) 2 2 0).answer (onlyPushes [fin 1, pinf, nan, fin 3, ninf]) () =
      .val [(ninf, .val (fin 0)), (nan, .val (fin (3 / 5))), (pinf, .val (fin 0)), (pinf, .val (fin (2 / 5)))] :=
  (C87_pos_inf (F := Fmt.exact ℚ) (M := 1000) ⟨rfl, rfl, rfl⟩ (by norm_num) (by norm_num) rfl 0
    (onlyPushes [fin 1, pinf, nan, fin 3, ninf])
    (fun x _ => by cases x <;> simp [Ext.Rep, Fmt.exact]) (fun _ _ => ⟨rfl, rfl⟩) (by simp [pushes, onlyPushes])
    (by decide +kernel) (by decide +kernel)).trans (by decide +kernel)

/-- `-inf` among them. -/
example :
    (densitySet (fin (-1000) : Ex ℚ) (fin 1000) 2 2 0).answer (onlyPushes [fin 1, ninf, nan, fin 3]) () =
      .val [(ninf, .val 0), (nan, .val 0), (nan, .val 0), (nan, .val 1)] :=
  C87_neg_inf (F := Fmt.exact ℚ) (M := 1000) ⟨rfl, rfl, rfl⟩ (by norm_num) (by norm_num) rfl 0
    (onlyPushes [fin 1, ninf, nan, fin 3])
    (fun x _ => by cases x <;> simp [Ext.Rep, Fmt.exact]) (fun _ _ => ⟨rfl, rfl⟩) (by simp [pushes, onlyPushes])
    (by decide +kernel)

/-- The largest number is 1000: finite samples whose difference overflows. -/
example :
    let F := Fmt.upTo (1000 : ℚ) (by norm_num) (by norm_num)
    (densitySet (fin (-1000) : Ext F) (fin 1000) 2 2 0).answer (onlyPushes [fin (-900), fin 900, fin 0, fin 5]) () =
      .val [(ninf, .val (fin 0)), (nan, .val (fin 1)), (pinf, .val (fin 0)), (pinf, .val (fin 0))] := by
  intro F
  refine (C87_infinite_range (F := F) (M := 1000) ⟨rfl, by decide +kernel, by decide +kernel⟩ (by norm_num) (by norm_num)
    (by decide +kernel) 0 (onlyPushes [fin (-900), fin 900, fin 0, fin 5])
    ?_ (fun k hk => ⟨rfl, ?_⟩) (by simp [pushes, onlyPushes]) (by decide +kernel) (by decide +kernel)).trans
    (by decide +kernel)
  · simp only [pushes, onlyPushes, List.map_cons, List.map_nil]
    intro x hx
    simp only [List.mem_cons, List.not_mem_nil, or_false] at hx
    rcases hx with rfl | rfl | rfl | rfl <;> exact ⟨rfl, by decide +kernel, by decide +kernel⟩
  · have : k ≤ 4 := by simpa [pushes, onlyPushes] using hk
    interval_cases k <;> decide +kernel

/-- Finite cached samples, NaN and infinite ones later, with weights. -/
example :
    (wdensitySet (fin (-1000) : Ex ℚ) (fin 1000) 2 2 0).answer
        (onlyPushes [(fin 1, fin 1), (fin 3, fin 2), (nan, fin 1), (ninf, fin 3), (pinf, fin 1)]) () =
      .val [(fin 0, .val (fin (3 / 8))), (fin 1, .val (fin (1 / 8))), (fin 2, .val (fin 0)), (fin 3, .val (fin (1 / 2)))] := by
  decide +kernel

end Acc
