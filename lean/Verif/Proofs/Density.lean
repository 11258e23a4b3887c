import Verif.Model.Density
import Verif.Spec.Histogram
import Verif.Spec.Stats
import Verif.Props.Basic
import Mathlib.Tactic.FieldSimp
import Mathlib.Tactic.Ring
import Mathlib.Tactic.Linarith
import Mathlib.Algebra.BigOperators.Ring.List

set_option linter.unusedSectionVars false

namespace Acc

variable {K : Type} [Field K] [LinearOrder K] [IsStrictOrderedRing K]

open Spec

/-! ## Bins -/

theorem edge_one (a b : K) (B : ℕ) : edge a b B 1 = a := by simp [edge]

theorem edge_last (a b : K) {B : ℕ} (hB : 0 < B) : edge a b B (B + 1) = b := by
  have : (B : K) ≠ 0 := Nat.cast_ne_zero.2 hB.ne'
  unfold edge
  push_cast
  field_simp
  ring

theorem edge_mono {a b : K} (hab : a ≤ b) (B : ℕ) {i j : ℕ} (h : i ≤ j) :
    edge a b B i ≤ edge a b B j := by
  unfold edge
  have h1 : (0 : K) ≤ (b - a) / (B : K) := div_nonneg (sub_nonneg.2 hab) (Nat.cast_nonneg B)
  have h2 : (i : K) ≤ (j : K) := Nat.cast_le.2 h
  nlinarith

theorem inBin_zero {a b : K} {B : ℕ} {x : K} : inBin a b B 0 x ↔ x < a := by simp [inBin]

theorem inBin_last {a b : K} {B : ℕ} {x : K} : inBin a b B (B + 1) x ↔ b ≤ x := by simp [inBin]

theorem inBin_mid {a b : K} {B i : ℕ} {x : K} (h0 : 0 < i) (h1 : i ≤ B) :
    inBin a b B i x ↔ edge a b B i ≤ x ∧ x < edge a b B (i + 1) := by
  simp [inBin, h0.ne', show i ≠ B + 1 by omega]

/-- Lower bound that membership of a bin implies. -/
theorem inBin_lower {a b : K} {B : ℕ} (hB : 0 < B) {i : ℕ} {x : K} (h : inBin a b B i x)
    (h0 : 0 < i) : edge a b B i ≤ x := by
  unfold inBin at h
  split at h
  · omega
  · split at h
    · subst_vars; rwa [edge_last _ _ hB]
    · exact h.1

/-- Upper bound that membership of a bin implies. -/
theorem inBin_upper {a b : K} {B : ℕ} {i : ℕ} {x : K} (h : inBin a b B i x)
    (h0 : i ≠ B + 1) : x < edge a b B (i + 1) := by
  unfold inBin at h
  split at h
  · subst_vars; rwa [edge_one]
  · exact (by simpa [h0] using h : _ ∧ _).2

theorem inBin_unique {a b : K} (hab : a ≤ b) {B : ℕ} (hB : 0 < B) {i j : ℕ} (hi : i ≤ B + 1)
    (hj : j ≤ B + 1) {x : K} (h : inBin a b B i x) (h' : inBin a b B j x) : i = j := by
  by_contra hne
  wlog hlt : i < j generalizing i j
  · exact this hj hi h' h (fun e => hne e.symm) (by omega)
  have h1 := inBin_upper h (by omega)
  have h2 := inBin_lower hB h' (by omega)
  have h3 := edge_mono hab B (show i + 1 ≤ j by omega)
  exact absurd (lt_of_lt_of_le h1 (le_trans h3 h2)) (lt_irrefl _)

theorem binPositions_eq (a b : K) (B : ℕ) :
    binPositions B a ((b - a) / (B : K)) = (List.range (B + 2)).map (edge a b B) := by
  unfold binPositions
  apply List.map_congr_left
  intro i _
  simp only [edge]

/-- The effect of the three-way bin search. -/
theorem binAdd_spec {a b : K} (hab : a ≤ b) {B : ℕ} (hB : 0 < B) (bins : List K)
    (hlen : bins.length = B + 2) (x inc : K) :
    ∃ k, k ≤ B + 1 ∧ inBin a b B k x ∧
      binAdd B ((List.range (B + 2)).map (edge a b B)) bins x inc =
        modifyAt bins k (· + inc) := by
  have hlenp : ((List.range (B + 2)).map (edge a b B)).length = B + 2 := by simp
  have h1 : getAt ((List.range (B + 2)).map (edge a b B)) 1 = .val a := by
    rw [getAt_lt (by rw [hlenp]; omega)]; simp [edge_one]
  have h2 : getAt ((List.range (B + 2)).map (edge a b B)) (B + 1) = .val b := by
    rw [getAt_lt (by rw [hlenp]; omega)]; simp [edge_last a b hB]
  unfold binAdd
  rw [h1]
  simp only [Res.val_bind]
  by_cases hx : x < a
  · exact ⟨0, by omega, inBin_zero.2 hx, by rw [if_pos hx]⟩
  rw [if_neg hx, h2]
  simp only [Res.val_bind]
  by_cases hx2 : b ≤ x
  · exact ⟨B + 1, le_refl _, inBin_last.2 hx2, by rw [if_pos hx2]⟩
  rw [if_neg hx2]
  have hs : ((List.range (B + 2)).map (edge a b B)).Pairwise (· ≤ ·) := by
    rw [List.pairwise_map]
    exact List.Pairwise.imp (fun h => edge_mono hab B h.le) List.pairwise_lt_range
  rw [upperBound_sorted hs]
  simp only [Res.val_bind]
  set d := ((List.range (B + 2)).map (edge a b B)).findIdx (fun e => decide (x < e)) with hd
  have hdl : d < ((List.range (B + 2)).map (edge a b B)).length := by
    rw [List.findIdx_lt_length]
    refine ⟨b, ?_, by simpa using hx2⟩
    rw [List.mem_map]
    exact ⟨B + 1, by simp, edge_last a b hB⟩
  have hdx : x < edge a b B d := by
    have := List.findIdx_getElem (w := hdl)
    simp only [List.getElem_map, List.getElem_range, decide_eq_true_eq] at this
    exact this
  have hd' : d < B + 2 := by simpa using hdl
  have hbefore : ∀ j, j < d → edge a b B j ≤ x := by
    intro j hj
    have := List.not_of_lt_findIdx hj
    simpa using this
  have hd2 : 2 ≤ d := by
    by_contra hcon
    have : edge a b B d ≤ edge a b B 1 := edge_mono hab B (by omega)
    rw [edge_one] at this
    exact hx (lt_of_lt_of_le hdx this)
  refine ⟨d - 1, by omega, ?_, ?_⟩
  · rw [inBin_mid (by omega) (by omega)]
    exact ⟨hbefore _ (by omega), by rwa [show d - 1 + 1 = d by omega]⟩
  · obtain ⟨e, he⟩ : ∃ e, d = e + 1 := ⟨d - 1, by omega⟩
    rw [he]
    rfl

/-- The bins after the samples `ps`. -/
def binsOf (a b : K) (B : ℕ) (ps : List (K × K)) : List K :=
  (List.range (B + 2)).map (fun i => binWeight a b B i ps)

theorem binWeight_snoc (a b : K) (B i : ℕ) (ps : List (K × K)) (p : K × K) :
    binWeight a b B i (ps ++ [p])
      = binWeight a b B i ps + (if inBin a b B i p.1 then p.2 else 0) := by
  unfold binWeight
  by_cases h : inBin a b B i p.1 <;> simp [List.filter_append, h]

theorem binAdd_binsOf {a b : K} (hab : a ≤ b) {B : ℕ} (hB : 0 < B) (ps : List (K × K)) (p : K × K) :
    binAdd B (binPositions B a ((b - a) / (B : K))) (binsOf a b B ps) p.1 p.2
      = .val (binsOf a b B (ps ++ [p])) := by
  obtain ⟨k, hk, hin, e⟩ := binAdd_spec hab hB (binsOf a b B ps) (by simp [binsOf]) p.1 p.2
  rw [binPositions_eq, e, modifyAt_lt (by simp [binsOf]; omega)]
  congr 1
  apply List.ext_getElem
  · simp [binsOf]
  · intro i h1 h2
    rw [List.getElem_set]
    simp only [binsOf, List.length_map, List.length_range] at h2
    simp only [binsOf, List.getElem_map, List.getElem_range]
    rw [binWeight_snoc]
    by_cases hik : k = i
    · subst hik; simp [hin]
    · have : ¬ inBin a b B i p.1 := fun h => hik (inBin_unique hab hB hk (by omega) hin h)
      simp [hik, this]

theorem foldRes_binsOf {a b : K} (hab : a ≤ b) {B : ℕ} (hB : 0 < B) (ps qs : List (K × K)) :
    foldRes (fun bins q => binAdd B (binPositions B a ((b - a) / (B : K))) bins q.1 q.2)
      (binsOf a b B ps) qs = .val (binsOf a b B (ps ++ qs)) := by
  induction qs generalizing ps with
  | nil => simp [foldRes]
  | cons q qs ih =>
    simp only [foldRes]
    rw [binAdd_binsOf hab hB, Res.val_bind, ih]
    simp

theorem binsOf_nil (a b : K) (B : ℕ) : binsOf a b B [] = List.replicate (B + 2) 0 := by
  apply List.ext_getElem
  · simp [binsOf]
  · intro i _ _; simp [binsOf, binWeight]

/-! ## The weighted density set -/

/-- Smallest and largest sample of the first `c` of a stream, as the set computes them. -/
def cacheMin (hi : K) (c : ℕ) (ps : List (K × K)) : K := minRun ltb hi ((ps.take c).map Prod.fst)
def cacheMax (lo : K) (c : ℕ) (ps : List (K × K)) : K := maxRun ltb lo ((ps.take c).map Prod.fst)

/-- What the histogram is after `ps`. -/
def wtable (lo hi : K) (c B : ℕ) (ps : List (K × K)) : List (K × Res K) :=
  if ps.length < c then List.replicate (B + 2) (0, fdiv 0 (wtotal ps))
  else (List.range (B + 2)).map (fun i =>
    (edge (cacheMin hi c ps) (cacheMax lo c ps) B i,
      fdiv (binWeight (cacheMin hi c ps) (cacheMax lo c ps) B i ps) (wtotal ps)))

structure WDensitySt.Inv (lo hi : K) (c B : ℕ) (s : WDensitySt K) (ps : List (K × K)) : Prop where
  cnt : s.cnt = ps.length
  wsum : s.wsum = wtotal ps
  mn : s.mn = minRun ltb hi (ps.map Prod.fst)
  mx : s.mx = maxRun ltb lo (ps.map Prod.fst)
  cs : s.cacheSize = c
  nb : s.numBins = B
  clen : s.cache.length = c
  cache : s.cache.take ps.length = ps.take c
  before : ps.length < c → s.bins = List.replicate (B + 2) 0 ∧ s.pos = List.replicate (B + 2) 0
  after : c ≤ ps.length →
    s.pos = binPositions B (cacheMin hi c ps) ((cacheMax lo c ps - cacheMin hi c ps) / (B : K)) ∧
    s.bins = binsOf (cacheMin hi c ps) (cacheMax lo c ps) B ps
  hist : s.dirty = false → s.hist = wtable lo hi c B ps

theorem wdensityInit_inv (lo hi : K) {c B : ℕ} (hc : 0 < c) (x0 : K) :
    (wdensityInit lo hi c B x0).Inv lo hi c B [] where
  cnt := rfl
  wsum := by simp [wdensityInit, wtotal]
  mn := rfl
  mx := rfl
  cs := rfl
  nb := rfl
  clen := by simp [wdensityInit]
  cache := by simp
  before := fun _ => ⟨rfl, rfl⟩
  after := fun h => by simp at h; omega
  hist := fun h => by simp [wdensityInit] at h

theorem cacheMin_le_cacheMax {lo hi : K} {c : ℕ} {ps : List (K × K)} (hc : 0 < c)
    (hne : ps ≠ []) (hlim : ∀ p ∈ ps, lo ≤ p.1 ∧ p.1 ≤ hi) :
    cacheMin hi c ps ≤ cacheMax lo c ps := by
  have hne' : (ps.take c).map Prod.fst ≠ [] := by
    simp [hc.ne', hne]
  have hmem : ∀ x ∈ (ps.take c).map Prod.fst, lo ≤ x ∧ x ≤ hi := by
    intro x hx
    obtain ⟨p, hp, rfl⟩ := List.mem_map.mp hx
    exact hlim p (List.mem_of_mem_take hp)
  have h1 := C09_min hi _ hne' (fun x hx => (hmem x hx).2)
  have h2 := C09_max lo _ hne' (fun x hx => (hmem x hx).1)
  exact h2.2 h1.1

theorem take_snoc_of_le {X : Type*} {c : ℕ} {ps : List X} (p : X) (h : c ≤ ps.length) :
    (ps ++ [p]).take c = ps.take c := by
  rw [List.take_append_of_le_length h]

theorem wdensityPush_inv {lo hi : K} {c B : ℕ} (hB : 0 < B) {s : WDensitySt K}
    {ps : List (K × K)} (p : K × K) (hlim : ∀ q ∈ ps ++ [p], lo ≤ q.1 ∧ q.1 ≤ hi) (hc : 0 < c)
    (I : s.Inv lo hi c B ps) :
    ∃ s', wdensityPush s p = .val s' ∧ s'.Inv lo hi c B (ps ++ [p]) := by
  have hB' : (B : K) ≠ 0 := Nat.cast_ne_zero.2 hB.ne'
  have hmn : minAssign ltb s.mn p.1 = minRun ltb hi ((ps ++ [p]).map Prod.fst) := by
    rw [I.mn]; simp [minRun]
  have hmx : maxAssign ltb s.mx p.1 = maxRun ltb lo ((ps ++ [p]).map Prod.fst) := by
    rw [I.mx]; simp [maxRun]
  have hw : sumStep s.wsum p.2 = wtotal (ps ++ [p]) := by
    rw [I.wsum]; simp [wtotal, sumStep]
  unfold wdensityPush wdensityStep
  simp only [I.cs, I.nb, I.cnt]
  rcases lt_trichotomy (ps.length + 1) c with h | h | h
  · -- still filling
    rw [if_pos h.le, setAt_lt (by rw [I.clen]; omega), Res.val_bind, if_neg h.ne,
      if_neg (by omega)]
    refine ⟨_, rfl, ?_⟩
    refine ⟨by simp, hw, hmn, hmx, rfl, rfl, by simp [I.clen], ?_, ?_, ?_, by simp⟩
    · simp only [List.length_append, List.length_singleton, Nat.add_sub_cancel]
      rw [List.take_of_length_le (l := ps ++ [p]) (by simp; omega)]
      have := I.cache
      rw [List.take_of_length_le (l := ps) (by omega)] at this
      rw [List.take_add_one, List.take_set_of_le (le_refl _), this]
      simp [I.clen, show ps.length < c by omega]
    · intro _
      exact I.before (by omega)
    · intro h'
      simp at h'; omega
  · -- the cache is full now
    have hab := cacheMin_le_cacheMax (c := c) hc (by simp) hlim
    rw [if_pos h.le, setAt_lt (by rw [I.clen]; omega), Res.val_bind, if_pos h]
    have hcache : s.cache.set (ps.length + 1 - 1) p = ps ++ [p] := by
      have h1 : (s.cache.set ps.length p).take (ps.length + 1) = ps ++ [p] := by
        have := I.cache
        rw [List.take_of_length_le (l := ps) (by omega)] at this
        rw [List.take_add_one, List.take_set_of_le (le_refl _), this]
        simp [I.clen, show ps.length < c by omega]
      rw [List.take_of_length_le (by simp [I.clen]; omega)] at h1
      simpa using h1
    have htake : (ps ++ [p]).take c = ps ++ [p] := List.take_of_length_le (by simp; omega)
    have e1 : minAssign ltb s.mn p.1 = cacheMin hi c (ps ++ [p]) := by
      rw [hmn, cacheMin, htake]
    have e2 : maxAssign ltb s.mx p.1 = cacheMax lo c (ps ++ [p]) := by
      rw [hmx, cacheMax, htake]
    rw [hcache, (I.before (by omega)).1, ← binsOf_nil (cacheMin hi c (ps ++ [p]))
      (cacheMax lo c (ps ++ [p])) B]
    simp only [fdiv_one, Res.val_bind, fdiv_ne hB', e1, e2, Res.pure_eq]
    rw [foldRes_binsOf hab hB]
    refine ⟨_, rfl, ?_⟩
    refine ⟨by simp, hw, ?_, ?_, rfl, rfl, by simp; omega, ?_, ?_, ?_, by simp⟩
    · exact e1.symm.trans hmn
    · exact e2.symm.trans hmx
    · rw [htake, List.take_of_length_le (le_refl _)]
    · intro h'; simp at h'; omega
    · intro _
      exact ⟨rfl, by simp⟩
  · -- after
    have hcl : c ≤ ps.length := by omega
    have hne : ps ≠ [] := by rintro rfl; simp at hcl; omega
    have hab := cacheMin_le_cacheMax (c := c) hc hne
      (fun q hq => hlim q (List.mem_append_left _ hq))
    rw [if_neg (by omega), Res.val_bind, if_neg (by omega), if_pos h, (I.after hcl).1,
      (I.after hcl).2, binAdd_binsOf hab hB]
    have em : cacheMin hi c (ps ++ [p]) = cacheMin hi c ps := by
      rw [cacheMin, take_snoc_of_le p hcl, cacheMin]
    have eM : cacheMax lo c (ps ++ [p]) = cacheMax lo c ps := by
      rw [cacheMax, take_snoc_of_le p hcl, cacheMax]
    refine ⟨_, rfl, ?_⟩
    refine ⟨by simp, hw, hmn, hmx, rfl, rfl, I.clen, ?_, ?_, ?_, by simp⟩
    · have h0 := I.cache
      rw [List.take_of_length_le (by rw [I.clen]; omega)] at h0
      rw [List.take_of_length_le (by rw [I.clen]; simp; omega), take_snoc_of_le p hcl]; exact h0
    · intro h'; simp at h'; omega
    · intro _
      rw [em, eM]
      exact ⟨rfl, rfl⟩

theorem wdensityQuery_inv {lo hi : K} {c B : ℕ} {s : WDensitySt K} {ps : List (K × K)}
    (I : s.Inv lo hi c B ps) :
    ∃ s', wdensityQuery s = .val (s', wtable lo hi c B ps) ∧ s'.Inv lo hi c B ps := by
  unfold wdensityQuery
  by_cases hd : s.dirty = true
  · rw [if_pos hd]
    have key : mapRes (fun i => do
        let p ← getAt s.pos i
        let b ← getAt s.bins i
        pure (p, fdiv b s.wsum)) (List.range (s.numBins + 2)) = .val (wtable lo hi c B ps) := by
      rw [I.nb]
      by_cases h : ps.length < c
      · obtain ⟨h1, h2⟩ := I.before h
        rw [mapRes_val (g := fun _ => ((0 : K), fdiv 0 (wtotal ps)))]
        · simp [wtable, h]
        · intro i hi
          have hi' : i < B + 2 := by simpa using hi
          rw [h1, h2, getAt_lt (by simpa using hi')]
          simp [I.wsum]
      · obtain ⟨h1, h2⟩ := I.after (by omega)
        rw [mapRes_val (g := fun i => (edge (cacheMin hi c ps) (cacheMax lo c ps) B i,
          fdiv (binWeight (cacheMin hi c ps) (cacheMax lo c ps) B i ps) (wtotal ps)))]
        · simp [wtable, h]
        · intro i hi
          have hi' : i < B + 2 := by simpa using hi
          rw [h1, h2, binPositions_eq, getAt_lt (by simpa using hi'),
            getAt_lt (by simpa [binsOf] using hi')]
          simp [I.wsum, binsOf]
    rw [key]
    refine ⟨_, rfl, ?_⟩
    exact ⟨I.cnt, I.wsum, I.mn, I.mx, I.cs, I.nb, I.clen, I.cache, I.before, I.after, fun _ => rfl⟩
  · rw [if_neg hd, I.hist (by simpa using hd)]
    exact ⟨s, rfl, I⟩

theorem wdensity_exec {lo hi : K} {c B : ℕ} (hc : 0 < c) (hB : 0 < B) (x0 : K)
    (h : List (Op (K × K) Unit)) (s : WDensitySt K) (ps : List (K × K))
    (I : s.Inv lo hi c B ps) (hl : ∀ q ∈ ps ++ pushes h, lo ≤ q.1 ∧ q.1 ≤ hi) :
    ∃ s', (wdensitySet lo hi c B x0).exec s h = .val s' ∧ s'.Inv lo hi c B (ps ++ pushes h) := by
  induction h generalizing s ps with
  | nil => exact ⟨s, rfl, by simpa [pushes] using I⟩
  | cons o os ih =>
    cases o with
    | push x =>
      obtain ⟨s', e, I'⟩ := wdensityPush_inv hB x (by
        intro q hq; apply hl; simp [pushes] at hq ⊢; tauto) hc I
      obtain ⟨s'', e', I''⟩ := ih s' (ps ++ [x]) I' (by simpa [pushes] using hl)
      refine ⟨s'', ?_, by simpa [pushes] using I''⟩
      simp only [RMachine.exec, RMachine.exec1]
      change (wdensityPush s x >>= _) = _
      rw [e, Res.val_bind, e']
    | query q =>
      obtain ⟨s', e, I'⟩ := wdensityQuery_inv I
      obtain ⟨s'', e', I''⟩ := ih s' ps I' (by simpa [pushes] using hl)
      refine ⟨s'', ?_, by simpa [pushes] using I''⟩
      simp only [RMachine.exec, RMachine.exec1]
      change ((wdensityQuery s >>= _) >>= _) = _
      rw [e, Res.val_bind, Res.pure_eq, Res.val_bind, e']

/-- After every legal history the set answers with `wtable`. -/
theorem wdensity_answer {lo hi : K} {c B : ℕ} (hc : 0 < c) (hB : 0 < B) (x0 : K)
    (h : List (Op (K × K) Unit)) (hlim : ∀ q ∈ pushes h, lo ≤ q.1 ∧ q.1 ≤ hi) :
    (wdensitySet lo hi c B x0).answer h () = .val (wtable lo hi c B (pushes h)) := by
  obtain ⟨s', e, I⟩ := wdensity_exec hc hB x0 h _ [] (wdensityInit_inv lo hi hc x0)
    (by simpa using hlim)
  simp only [List.nil_append] at I
  unfold RMachine.answer
  change ((wdensitySet lo hi c B x0).exec (wdensityInit lo hi c B x0) h >>= _) = _
  rw [e, Res.val_bind]
  obtain ⟨s'', e', _⟩ := wdensityQuery_inv I
  change (wdensityQuery s' >>= _) = _
  rw [e', Res.val_bind, Res.pure_eq]

/-! ## The unweighted set as the weighted one with unit weights -/

/-- The state of the weighted set that corresponds to an unweighted one. -/
def DensitySt.toW (s : DensitySt K) : WDensitySt K where
  cnt := s.cnt
  wsum := (s.cnt : K)
  mn := s.mn
  mx := s.mx
  cacheSize := s.cacheSize
  cache := s.cache.map (fun x => (x, 1))
  numBins := s.numBins
  bins := s.bins
  pos := s.pos
  hist := s.hist
  dirty := s.dirty

theorem foldRes_unit (B : ℕ) (pos bins : List K) (xs : List K) :
    foldRes (fun bins q => binAdd B pos bins q.1 q.2) bins (xs.map (fun x => (x, (1 : K))))
      = foldRes (fun bins y => binAdd B pos bins y 1) bins xs := by
  induction xs generalizing bins with
  | nil => rfl
  | cons x xs ih =>
    simp only [List.map_cons, foldRes]
    cases binAdd B pos bins x 1 <;> simp [ih]

theorem toW_push (s : DensitySt K) (x : K) :
    wdensityPush s.toW (x, 1) = DensitySt.toW <$> densityPush s x := by
  unfold wdensityPush densityPush wdensityStep densityStep
  simp only [DensitySt.toW]
  have hset : setAt (s.cache.map (fun x => (x, (1 : K)))) (s.cnt + 1 - 1) (x, 1)
      = (List.map (fun x => (x, (1 : K)))) <$> setAt s.cache (s.cnt + 1 - 1) x := by
    unfold setAt
    by_cases h : s.cnt + 1 - 1 < s.cache.length
    · simp only [List.length_map, h, if_true, Res.map_val, List.map_set]
    · simp only [List.length_map, h, if_false]; rfl
  rw [hset]
  by_cases h1 : s.cnt + 1 ≤ s.cacheSize
  · simp only [h1, if_true]
    cases setAt s.cache (s.cnt + 1 - 1) x with
    | val cache =>
      simp only [Res.map_val, Res.val_bind]
      by_cases h2 : s.cnt + 1 = s.cacheSize
      · simp only [h2, if_true, fdiv_one, Res.val_bind]
        cases fdiv (maxAssign ltb s.mx x - minAssign ltb s.mn x) (s.numBins : K) with
        | val bs =>
          simp only [Res.val_bind, foldRes_unit]
          cases foldRes (fun bins y => binAdd s.numBins (binPositions s.numBins
            (minAssign ltb s.mn x) bs) bins y 1) s.bins cache with
          | val bins => simp [sumStep, ← h2, DensitySt.toW]
          | _ => rfl
        | _ => rfl
      · simp only [h2, if_false, show ¬ s.cacheSize < s.cnt + 1 by omega]
        simp [sumStep, DensitySt.toW]
    | _ => rfl
  · simp only [h1, if_false, Res.val_bind, show s.cnt + 1 ≠ s.cacheSize by omega,
      show s.cacheSize < s.cnt + 1 by omega, if_true]
    cases binAdd s.numBins s.pos s.bins x 1 with
    | val bins => simp [sumStep, DensitySt.toW]
    | _ => rfl

theorem toW_query (s : DensitySt K) :
    wdensityQuery s.toW = (fun r => (r.1.toW, r.2)) <$> densityQuery s := by
  unfold wdensityQuery densityQuery
  by_cases hd : s.dirty = true
  · simp only [DensitySt.toW, hd, if_true]
    cases mapRes (fun i => do
        let p ← getAt s.pos i
        let b ← getAt s.bins i
        pure (p, fdiv b (s.cnt : K))) (List.range (s.numBins + 2)) with
    | val hist => rfl
    | _ => rfl
  · simp only [DensitySt.toW, hd]
    simp [hd]

theorem densityInit_inv (lo hi : K) {c B : ℕ} (hc : 0 < c) (x0 : K) :
    (densityInit lo hi c B x0).toW.Inv lo hi c B [] where
  cnt := rfl
  wsum := by simp [DensitySt.toW, densityInit, wtotal]
  mn := rfl
  mx := rfl
  cs := rfl
  nb := rfl
  clen := by simp [DensitySt.toW, densityInit]
  cache := by simp
  before := fun _ => ⟨rfl, rfl⟩
  after := fun h => by simp at h; omega
  hist := fun h => by simp [DensitySt.toW, densityInit] at h

theorem densityQuery_inv {lo hi : K} {c B : ℕ} (s : DensitySt K) (xs : List K)
    (I : s.toW.Inv lo hi c B (xs.map (fun x => (x, (1 : K))))) :
    ∃ s', densityQuery s = .val (s', wtable lo hi c B (xs.map (fun x => (x, (1 : K))))) ∧
      s'.toW.Inv lo hi c B (xs.map (fun x => (x, (1 : K)))) := by
  obtain ⟨s', e, I'⟩ := wdensityQuery_inv I
  rw [toW_query] at e
  cases hq : densityQuery s with
  | val r =>
    rw [hq, Res.map_val] at e
    simp only [Res.val.injEq, Prod.mk.injEq] at e
    exact ⟨r.1, by rw [← e.2], by rw [e.1]; exact I'⟩
  | _ => rw [hq] at e; exact absurd e (by simp [Functor.map, Res.bind])

theorem densityPush_inv {lo hi : K} {c B : ℕ} (hc : 0 < c) (hB : 0 < B) (s : DensitySt K)
    (xs : List K) (x : K) (hl : ∀ y ∈ xs ++ [x], lo ≤ y ∧ y ≤ hi)
    (I : s.toW.Inv lo hi c B (xs.map (fun x => (x, (1 : K))))) :
    ∃ s', densityPush s x = .val s' ∧
      s'.toW.Inv lo hi c B ((xs ++ [x]).map (fun x => (x, (1 : K)))) := by
  obtain ⟨s', e, I'⟩ := wdensityPush_inv hB (x, 1) (by
    intro q hq
    rw [List.mem_append, List.mem_map, List.mem_singleton] at hq
    rcases hq with ⟨y, hy, rfl⟩ | rfl
    · exact hl y (by simp [hy])
    · exact hl x (by simp)) hc I
  rw [toW_push] at e
  cases hp : densityPush s x with
  | val t =>
    rw [hp, Res.map_val, Res.val.injEq] at e
    exact ⟨t, rfl, by rw [e]; simpa using I'⟩
  | _ => rw [hp] at e; exact absurd e (by simp [Functor.map, Res.bind])

theorem density_exec {lo hi : K} {c B : ℕ} (hc : 0 < c) (hB : 0 < B) (x0 : K)
    (h : List (Op K Unit)) (s : DensitySt K) (xs : List K)
    (I : s.toW.Inv lo hi c B (xs.map (fun x => (x, (1 : K)))))
    (hl : ∀ x ∈ xs ++ pushes h, lo ≤ x ∧ x ≤ hi) :
    ∃ s', (densitySet lo hi c B x0).exec s h = .val s' ∧
      s'.toW.Inv lo hi c B ((xs ++ pushes h).map (fun x => (x, (1 : K)))) := by
  induction h generalizing s xs with
  | nil => exact ⟨s, rfl, by simpa [pushes] using I⟩
  | cons o os ih =>
    cases o with
    | push x =>
      obtain ⟨s', e, I'⟩ := densityPush_inv hc hB s xs x (by
        intro q hq; apply hl; simp [pushes] at hq ⊢; tauto) I
      obtain ⟨s'', e', I''⟩ := ih s' (xs ++ [x]) I' (by simpa [pushes] using hl)
      refine ⟨s'', ?_, by simpa [pushes] using I''⟩
      simp only [RMachine.exec, RMachine.exec1]
      change (densityPush s x >>= _) = _
      rw [e, Res.val_bind, e']
    | query q =>
      obtain ⟨s', e, I'⟩ := densityQuery_inv s xs I
      obtain ⟨s'', e', I''⟩ := ih s' xs I' (by simpa [pushes] using hl)
      refine ⟨s'', ?_, by simpa [pushes] using I''⟩
      simp only [RMachine.exec, RMachine.exec1]
      change ((densityQuery s >>= _) >>= _) = _
      rw [e, Res.val_bind, Res.pure_eq, Res.val_bind, e']

/-- After every legal history the unweighted set answers with the table of unit weights. -/
theorem density_answer {lo hi : K} {c B : ℕ} (hc : 0 < c) (hB : 0 < B) (x0 : K)
    (h : List (Op K Unit)) (hlim : ∀ x ∈ pushes h, lo ≤ x ∧ x ≤ hi) :
    (densitySet lo hi c B x0).answer h ()
      = .val (wtable lo hi c B ((pushes h).map (fun x => (x, (1 : K))))) := by
  obtain ⟨s', e, I⟩ := density_exec hc hB x0 h _ [] (densityInit_inv lo hi hc x0)
    (by simpa using hlim)
  simp only [List.nil_append] at I
  unfold RMachine.answer
  change ((densitySet lo hi c B x0).exec (densityInit lo hi c B x0) h >>= _) = _
  rw [e, Res.val_bind]
  obtain ⟨s'', e', _⟩ := densityQuery_inv s' _ I
  change (densityQuery s' >>= _) = _
  rw [e', Res.val_bind, Res.pure_eq]

theorem binWeight_unit (a b : K) (B i : ℕ) (xs : List K) :
    binWeight a b B i (xs.map (fun x => (x, (1 : K)))) = (binCount a b B i xs : K) := by
  induction xs with
  | nil => simp [binWeight, binCount]
  | cons x xs ih =>
    unfold binWeight binCount at ih ⊢
    by_cases h : inBin a b B i x <;>
      (simp [h] at ih ⊢; rw [ih]; try ring)

end Acc
