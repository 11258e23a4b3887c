import Verif.Proofs.PSquare
import Verif.Proofs.Median
import Mathlib.Order.Bounds.Basic
import Mathlib.Tactic.NormNum

/-!
# Properties of the unweighted P-square estimators (C22, C23, C24, share of C28, C54, C56)

`pushes h` is the stream of samples in the history `h`; all theorems allow extractions anywhere in
between.
-/

set_option linter.unusedSectionVars false

namespace Acc

variable {K : Type} [Field K] [LinearOrder K] [IsStrictOrderedRing K]

open Spec

/-! ## Helpers -/

theorem markersOf_least {m : ℕ} (hm : 2 ≤ m) (f : ℕ → K) {xs : List K} (h : m ≤ xs.length) :
    IsLeast {x | x ∈ xs} ((markersOf m f xs).q 0) ∧
    IsGreatest {x | x ∈ xs} ((markersOf m f xs).q (m - 1)) ∧
    (markersOf m f xs).n (m - 1) = (xs.length : K) := by
  have G := markersOf_good hm f h
  have hmem : ∀ x, x ∈ (unitW ((xs.take m).insertionSort (· ≤ ·)) ++ unitW (xs.drop m)).map Prod.fst
      ↔ x ∈ xs := by
    intro x
    conv_rhs => rw [← List.take_append_drop m xs, List.mem_append]
    simp [unitW, Function.comp_def]
  refine ⟨⟨(hmem _).1 G.min_mem, fun x hx => G.min_le x ((hmem x).2 hx)⟩,
    ⟨(hmem _).1 G.max_mem, fun x hx => G.le_max x ((hmem x).2 hx)⟩, ?_⟩
  rw [G.last, pTotal_append, pTotal_unitW, pTotal_unitW, List.length_insertionSort, List.length_take,
    List.length_drop, min_eq_left h, ← Nat.cast_add, Nat.add_sub_cancel' h]

theorem psqInv_len {m : ℕ} {f : ℕ → K} {s : PsqSt K} {xs : List K} (h : s.Inv m f xs) :
    s.heights.length = m ∧ s.pos.length = m := by
  rcases Nat.lt_or_ge xs.length m with hl | hl
  · obtain ⟨h1, h2⟩ := h.before hl
    rw [h1, h2]
    simp
    omega
  · obtain ⟨h1, h2⟩ := h.after hl
    rw [h1, h2]
    simp

theorem psqQuantile_exec (p : K) (h : List (Op K Unit)) :
    ∃ s, (psqQuantileSet p).exec (psqQuantileSet p).init h = .val s ∧
      s.Inv 5 (quantileFractions p) (pushes h) := by
  have := RMachine.exec_inv (psqQuantileSet p) (fun s xs => s.Inv 5 (quantileFractions p) xs)
    (fun s xs x I => psqPush_inv (by norm_num) _ s xs x I)
    (fun s xs q I => by
      refine ⟨s, s.heights[2]'(by rw [(psqInv_len I).1]; norm_num), ?_, I⟩
      simp only [psqQuantileSet]
      rw [getAt_lt (by rw [(psqInv_len I).1]; norm_num)]
      rfl)
    (psqQuantileSet p).init [] (psqInit_inv (by norm_num) _ (quantileDes_eq p)) h
  simpa using this

theorem epsq_exec (ps : List K) (h : List (Op K Unit)) :
    ∃ s, (epsqSet ps).exec (epsqSet ps).init h = .val s ∧
      s.Inv (2 * ps.length + 3) (extendedFractions ps) (pushes h) := by
  have := RMachine.exec_inv (epsqSet ps)
    (fun s xs => s.Inv (2 * ps.length + 3) (extendedFractions ps) xs)
    (fun s xs x I => by
      simp only [epsqSet, extendedIncr_eq]
      exact psqPush_inv (by omega) _ s xs x I)
    (fun s xs q I => by
      refine ⟨s, (List.range' 1 ps.length).map fun i => (s.heights[2 * i]?).getD 0, ?_, I⟩
      simp only [epsqSet, epsqResult]
      rw [mapRes_val (g := fun i => (s.heights[2 * i]?).getD 0)]
      · rfl
      · intro i hi
        rw [List.mem_range'_1] at hi
        have hl : 2 * i < s.heights.length := by rw [(psqInv_len I).1]; omega
        rw [getAt_lt hl]
        simp [hl])
    (epsqSet ps).init [] (by
      simp only [epsqSet, extendedIncr_eq]
      exact psqInit_inv (by omega) _ (extendedDes_eq ps)) h
  simpa using this

theorem psqHist_val {m : ℕ} (hs ns : ℕ → K) {n : K} (hn : n ≠ 0) :
    psqHist (tab m hs) (tab m ns) n = .val (tab m fun i => (hs i, .val (ns i / n))) := by
  unfold psqHist
  rw [tab_length, mapRes_val (g := fun i => (hs i, Res.val (ns i / n)))]
  · rfl
  · intro i hi
    have := List.mem_range.1 hi
    simp [getAt_tab _ this, fdiv_ne hn]

/-- Invariant of the cumulative distribution set. -/
structure PsqCumulSt.Inv (b : ℕ) (s : PsqCumulSt K) (xs : List K) : Prop where
  m : s.m.Inv (b + 1) (cellFractions b) xs
  hist : s.dirty = false → psqHist s.m.heights s.m.pos (s.m.cnt : K) = .val s.hist

theorem psqHist_total (h pos : List K) (n : K) (hl : h.length ≤ pos.length) :
    ∃ r, psqHist h pos n = .val r := by
  unfold psqHist
  refine ⟨(List.range h.length).map fun i => ((h[i]?).getD 0, fdiv ((pos[i]?).getD 0) n), ?_⟩
  rw [mapRes_val]
  intro i hi
  have := List.mem_range.1 hi
  have h2 : i < pos.length := by omega
  simp [getAt_lt this, getAt_lt h2, this, h2]

theorem psqCumul_query_inv {b : ℕ} {s : PsqCumulSt K} {xs : List K} (I : s.Inv b xs) :
    ∃ s' r, (psqCumulSet b).query s () = .val (s', r) ∧ s'.Inv b xs ∧ s'.m = s.m ∧
      psqHist s.m.heights s.m.pos (s.m.cnt : K) = .val r := by
  have hl := psqInv_len I.m
  obtain ⟨r, hr⟩ := psqHist_total s.m.heights s.m.pos (s.m.cnt : K) (by omega)
  by_cases hd : s.dirty
  · refine ⟨{ s with hist := r, dirty := false }, r, ?_, ⟨I.m, fun _ => hr⟩, rfl, hr⟩
    simp only [psqCumulSet, hd, if_true, hr, Res.val_bind, Res.pure_eq]
  · have hd' : s.dirty = false := by simpa using hd
    refine ⟨s, s.hist, ?_, I, rfl, I.hist hd'⟩
    simp only [psqCumulSet, hd', Res.pure_eq]
    rfl

theorem psqCumul_push_inv {b : ℕ} (hb : 0 < b) {s : PsqCumulSt K} {xs : List K} (I : s.Inv b xs)
    (x : K) : ∃ s', (psqCumulSet b).push s x = .val s' ∧ s'.Inv b (xs ++ [x]) := by
  obtain ⟨m', e, I'⟩ := psqPush_inv (show 2 ≤ b + 1 by omega) (cellFractions b) s.m xs x I.m
  refine ⟨{ s with m := m', dirty := true }, ?_, ⟨I', by simp⟩⟩
  simp only [psqCumulSet, cumulIncr_eq, e, Res.val_bind, Res.pure_eq]

theorem psqCumul_init_inv {b : ℕ} (hb : 0 < b) : (psqCumulSet (K := K) b).init.Inv b [] := by
  refine ⟨?_, by simp [psqCumulSet]⟩
  simp only [psqCumulSet, cumulIncr_eq]
  exact psqInit_inv (by omega) _ (cumulDes_eq hb)

theorem psqCumul_exec {b : ℕ} (hb : 0 < b) (h : List (Op K Unit)) :
    ∃ s, (psqCumulSet b).exec (psqCumulSet b).init h = .val s ∧ s.Inv b (pushes h) := by
  have := RMachine.exec_inv (psqCumulSet b) (fun s xs => s.Inv b xs)
    (fun s xs x I => psqCumul_push_inv hb I x)
    (fun s xs q I => by
      obtain ⟨s', r, e, I', _⟩ := psqCumul_query_inv I
      exact ⟨s', r, e, I'⟩)
    (psqCumulSet b).init [] (psqCumul_init_inv hb) h
  simpa using this

/-! ## C22: quantile -/

/-- **C22** Refinement: from five samples on, `p_square_quantile(acc)` is the middle marker of the
P-square algorithm with five markers for the probability `p`. -/
theorem C22_algorithm (p : K) (h : List (Op K Unit)) (h5 : 5 ≤ (pushes h).length) :
    (psqQuantileSet p).answer h () = .val ((markersOf 5 (quantileFractions p) (pushes h)).q 2) := by
  obtain ⟨s, e, I⟩ := psqQuantile_exec p h
  unfold RMachine.answer
  rw [e, Res.val_bind]
  simp only [psqQuantileSet, (I.after h5).1]
  rw [getAt_tab _ (by norm_num)]
  rfl

/-- **C22** The state: heights non-decreasing, positions strictly increasing integers with first 1 and
last `n`, outer heights the exact extremes; no history is undefined or divides by zero. -/
theorem C22_invariants (p : K) (h : List (Op K Unit)) (h5 : 5 ≤ (pushes h).length) :
    ∃ s, (psqQuantileSet p).exec (psqQuantileSet p).init h = .val s ∧
      s.heights.length = 5 ∧ s.pos.length = 5 ∧
      s.heights.Pairwise (· ≤ ·) ∧ s.pos.Pairwise (· < ·) ∧ (∀ n ∈ s.pos, ∃ z : ℤ, n = z) ∧
      s.pos.head? = some 1 ∧ s.pos.getLast? = some ((pushes h).length : K) ∧
      (∃ a, s.heights.head? = some a ∧ IsLeast {x | x ∈ pushes h} a) ∧
      (∃ b, s.heights.getLast? = some b ∧ IsGreatest {x | x ∈ pushes h} b) := by
  obtain ⟨s, e, I⟩ := psqQuantile_exec p h
  obtain ⟨hh, hp⟩ := I.after h5
  have G := markersOf_good (by norm_num) (quantileFractions p) h5
  have U := markersOf_unit (by norm_num) (quantileFractions p) h5
  have L := markersOf_least (by norm_num) (quantileFractions p) h5
  refine ⟨s, e, by simp [hh], by simp [hp], by rw [hh]; exact tab_sorted G.toOrd, ?_, ?_, ?_, ?_,
    ⟨_, ?_, L.1⟩, ⟨_, ?_, L.2.1⟩⟩
  · rw [hp, List.pairwise_iff_getElem]
    intro i j hi hj hij
    rw [tab_getElem, tab_getElem]
    exact G.n_mono hij (by simpa using hj)
  · intro n hn
    rw [hp] at hn
    unfold tab at hn
    obtain ⟨i, _, rfl⟩ := List.mem_map.mp hn
    exact U.2 i
  · rw [hp, ← U.1]; rfl
  · rw [hp, ← L.2.2]; rfl
  · rw [hh]; rfl
  · rw [hh]; rfl

/-- **C22** The estimate lies between the smallest and the largest sample. -/
theorem C22_within (p : K) (h : List (Op K Unit)) (h5 : 5 ≤ (pushes h).length) :
    ∃ v, (psqQuantileSet p).answer h () = .val v ∧
      (∃ a ∈ pushes h, a ≤ v) ∧ (∃ b ∈ pushes h, v ≤ b) := by
  have G := markersOf_good (by norm_num) (quantileFractions p) h5
  have L := markersOf_least (by norm_num) (quantileFractions p) h5
  exact ⟨_, C22_algorithm p h h5, ⟨_, L.1.1, G.q_mono (by norm_num) (by norm_num)⟩,
    ⟨_, L.2.1.1, G.q_mono (by norm_num) (by norm_num)⟩⟩

/-- **C22** Before the fifth sample the result is not an estimate at all: it is the third sample pushed, or
0 if there are fewer than three. -/
theorem C22_before_five (p : K) (h : List (Op K Unit)) (h5 : (pushes h).length < 5) :
    (psqQuantileSet p).answer h () = .val (((pushes h)[2]?).getD 0) := by
  obtain ⟨s, e, I⟩ := psqQuantile_exec p h
  unfold RMachine.answer
  rw [e, Res.val_bind]
  simp only [psqQuantileSet]
  have hl : 2 < s.heights.length := by rw [(psqInv_len I).1]; norm_num
  rw [getAt_lt hl]
  simp only [Res.val_bind, Res.pure_eq]
  congr 1
  have hh := (I.before h5).1
  have : s.heights[2]? = some s.heights[2] := by simp [hl]
  generalize s.heights[2] = v at this
  rcases Nat.lt_or_ge 2 (pushes h).length with h2 | h2
  · rw [hh, List.getElem?_append_left h2] at this
    rw [this]; rfl
  · rw [hh, List.getElem?_append_right h2, List.getElem?_replicate, if_pos (by omega)] at this
    rw [List.getElem?_eq_none h2]
    exact (Option.some.inj this).symm

/-- **C22** With exactly five samples the result is the third smallest, whatever `p` is. -/
theorem C22_five (p : K) (h : List (Op K Unit)) (h5 : (pushes h).length = 5) :
    (psqQuantileSet p).answer h ()
      = .val ((((pushes h).insertionSort (· ≤ ·))[2]?).getD 0) := by
  rw [C22_algorithm p h (by omega)]
  congr 1
  unfold markersOf
  rw [List.take_of_length_le (by omega), List.drop_of_length_le (by omega)]
  show (pStart _).q 2 = _
  simp [pStart, unitW, Function.comp_def]

/-! ## C29: median -/

/-- **C29** `median(acc)` is the P-square estimate for the probability 1/2, and lies within the data. -/
theorem C29_median (h : List (Op K Unit)) (h5 : 5 ≤ (pushes h).length) :
    (medianSet (K := K)).answer h ()
        = .val ((markersOf 5 (quantileFractions (1 / 2)) (pushes h)).q 2) ∧
      (∃ a ∈ pushes h, a ≤ (markersOf 5 (quantileFractions (1 / 2)) (pushes h)).q 2) ∧
      (∃ b ∈ pushes h, (markersOf 5 (quantileFractions (1 / 2)) (pushes h)).q 2 ≤ b) := by
  obtain ⟨v, e, hv⟩ := C22_within (1 / 2 : K) h h5
  have e' := C22_algorithm (1 / 2 : K) h h5
  rw [e, Res.val.injEq] at e'
  subst e'
  exact ⟨e, hv⟩

/-! ## C23: cumulative distribution -/

/-- **C23** Refinement: with more samples than cells, the points are (height, position / n) of the P-square
algorithm with `b + 1` equidistant markers. -/
theorem C23_algorithm {b : ℕ} (hb : 0 < b) (h : List (Op K Unit)) (hn : b + 1 ≤ (pushes h).length) :
    (psqCumulSet b).answer h () = .val ((List.range (b + 1)).map fun i =>
      ((markersOf (b + 1) (cellFractions b) (pushes h)).q i,
        .val ((markersOf (b + 1) (cellFractions b) (pushes h)).n i / ((pushes h).length : K)))) := by
  obtain ⟨s, e, I⟩ := psqCumul_exec hb h
  obtain ⟨s', r, e', -, -, hr⟩ := psqCumul_query_inv I
  obtain ⟨hh, hp⟩ := I.m.after hn
  have hn0 : ((pushes h).length : K) ≠ 0 := Nat.cast_ne_zero.2 (by omega)
  rw [hh, hp, I.m.cnt, psqHist_val _ _ hn0, Res.val.injEq] at hr
  unfold RMachine.answer
  simp only [e, Res.val_bind, e', Res.pure_eq]
  rw [← hr]
  rfl

/-- **C23** The points form a distribution function: heights non-decreasing from the minimum to the
maximum, cumulative values strictly increasing from `1/n` to exactly 1. -/
theorem C23_distribution {b : ℕ} (hb : 0 < b) (h : List (Op K Unit))
    (hn : b + 1 ≤ (pushes h).length) :
    ∃ pts : List (K × K),
      (psqCumulSet b).answer h () = .val (pts.map fun p => (p.1, .val p.2)) ∧
      pts.length = b + 1 ∧
      (pts.map Prod.fst).Pairwise (· ≤ ·) ∧ (pts.map Prod.snd).Pairwise (· < ·) ∧
      (∃ a, pts.head? = some (a, 1 / ((pushes h).length : K)) ∧ IsLeast {x | x ∈ pushes h} a) ∧
      (∃ z, pts.getLast? = some (z, 1) ∧ IsGreatest {x | x ∈ pushes h} z) := by
  have G := markersOf_good (show 2 ≤ b + 1 by omega) (cellFractions b) hn
  have U := markersOf_unit (show 2 ≤ b + 1 by omega) (cellFractions b) hn
  have L := markersOf_least (show 2 ≤ b + 1 by omega) (cellFractions b) hn
  have hpos : (0 : K) < ((pushes h).length : K) := Nat.cast_pos.2 (by omega)
  refine ⟨tab (b + 1) fun i => ((markersOf (b + 1) (cellFractions b) (pushes h)).q i,
        (markersOf (b + 1) (cellFractions b) (pushes h)).n i / ((pushes h).length : K)), ?_, ?_, ?_,
    ?_, ⟨_, ?_, L.1⟩, ⟨_, ?_, L.2.1⟩⟩
  · rw [C23_algorithm hb h hn]
    simp [tab]
  · simp
  · rw [tab, List.map_map]
    exact tab_sorted G.toOrd
  · rw [tab, List.map_map, List.pairwise_iff_getElem]
    intro i j hi hj hij
    simp only [List.getElem_map, List.getElem_range, Function.comp]
    have : j < b + 1 := by simpa using hj
    exact (div_lt_div_iff_of_pos_right hpos).2 (G.n_mono hij this)
  · rw [tab, List.range_succ_eq_map, List.map_cons, List.head?_cons, U.1]
  · rw [tab, List.range_succ, List.map_append, List.map_singleton, List.getLast?_concat]
    have := L.2.2
    rw [Nat.add_sub_cancel] at this ⊢
    rw [this, div_self hpos.ne']

/-! ## C24: extended P-square -/

/-- **C24** Refinement: with at least `2q + 3` samples, `extended_p_square(acc)` returns the even markers
of the P-square algorithm for the extended set of fractions. -/
theorem C24_algorithm (ps : List K) (h : List (Op K Unit))
    (hn : 2 * ps.length + 3 ≤ (pushes h).length) :
    (epsqSet ps).answer h () = .val ((List.range' 1 ps.length).map fun i =>
      (markersOf (2 * ps.length + 3) (extendedFractions ps) (pushes h)).q (2 * i)) := by
  obtain ⟨s, e, I⟩ := epsq_exec ps h
  unfold RMachine.answer
  rw [e, Res.val_bind]
  simp only [epsqSet, (I.after hn).1, epsqResult]
  rw [mapRes_val (g := fun i =>
      (markersOf (2 * ps.length + 3) (extendedFractions ps) (pushes h)).q (2 * i))]
  · rfl
  · intro i hi
    rw [List.mem_range'_1] at hi
    rw [getAt_tab _ (by omega)]

/-- **C24** The estimates are non-decreasing and lie within the data; nothing undefined happens.  (The
probabilities need not even be increasing.) -/
theorem C24_ordered (ps : List K) (h : List (Op K Unit))
    (hn : 2 * ps.length + 3 ≤ (pushes h).length) :
    ∃ vs, (epsqSet ps).answer h () = .val vs ∧ vs.length = ps.length ∧ vs.Pairwise (· ≤ ·) ∧
      ∀ v ∈ vs, (∃ a ∈ pushes h, a ≤ v) ∧ (∃ b ∈ pushes h, v ≤ b) := by
  have G := markersOf_good (show 2 ≤ 2 * ps.length + 3 by omega) (extendedFractions ps) hn
  have L := markersOf_least (show 2 ≤ 2 * ps.length + 3 by omega) (extendedFractions ps) hn
  refine ⟨_, C24_algorithm ps h hn, by simp, ?_, ?_⟩
  · rw [List.pairwise_iff_getElem]
    intro i j hi hj hij
    simp only [List.length_map, List.length_range'] at hi hj
    simp only [List.getElem_map, List.getElem_range', one_mul]
    exact G.q_mono (by omega) (by omega)
  · intro v hv
    obtain ⟨i, hi, rfl⟩ := List.mem_map.mp hv
    rw [List.mem_range'_1] at hi
    exact ⟨⟨_, L.1.1, G.q_mono (by omega) (by omega)⟩, ⟨_, L.2.1.1, G.q_mono (by omega) (by omega)⟩⟩

/-! ## C28: extraction does not disturb the estimators -/

theorem pushes_only (xs : List K) : pushes (onlyPushes (Q := Unit) xs) = xs := by
  induction xs with
  | nil => rfl
  | cons x xs ih => simpa [onlyPushes, pushes] using ih

/-- **C28** for `p_square_quantile` (and `median`). -/
theorem C28_psq_transparent (p : K) (h : List (Op K Unit)) :
    (psqQuantileSet p).answer h () = (psqQuantileSet p).answer (onlyPushes (pushes h)) () := by
  rcases Nat.lt_or_ge (pushes h).length 5 with h5 | h5
  · rw [C22_before_five p h h5, C22_before_five p _ (by rwa [pushes_only]), pushes_only]
  · rw [C22_algorithm p h h5, C22_algorithm p _ (by rwa [pushes_only]), pushes_only]

/-- Two states with the same samples give the same histogram. -/
theorem psqInv_unique {m : ℕ} {f : ℕ → K} {s t : PsqSt K} {xs : List K} (hs : s.Inv m f xs)
    (ht : t.Inv m f xs) : s.heights = t.heights ∧ s.pos = t.pos ∧ s.cnt = t.cnt := by
  rcases Nat.lt_or_ge xs.length m with hl | hl
  · rw [(hs.before hl).1, (ht.before hl).1, (hs.before hl).2, (ht.before hl).2, hs.cnt, ht.cnt]
    exact ⟨rfl, rfl, rfl⟩
  · rw [(hs.after hl).1, (ht.after hl).1, (hs.after hl).2, (ht.after hl).2, hs.cnt, ht.cnt]
    exact ⟨rfl, rfl, rfl⟩

/-- **C28** for `p_square_cumulative_distribution`, whose result is cached. -/
theorem C28_psq_cumul_transparent {b : ℕ} (hb : 0 < b) (h : List (Op K Unit)) :
    (psqCumulSet b).answer h () = (psqCumulSet b).answer (onlyPushes (pushes h)) () := by
  obtain ⟨s, e, I⟩ := psqCumul_exec hb h
  obtain ⟨t, f, J⟩ := psqCumul_exec hb (onlyPushes (Q := Unit) (pushes h))
  rw [pushes_only] at J
  obtain ⟨s', r, e', -, -, hr⟩ := psqCumul_query_inv I
  obtain ⟨t', r', f', -, -, hr'⟩ := psqCumul_query_inv J
  obtain ⟨h1, h2, h3⟩ := psqInv_unique I.m J.m
  rw [h1, h2, h3, hr', Res.val.injEq] at hr
  unfold RMachine.answer
  simp only [e, f, e', f', Res.val_bind, Res.pure_eq, hr]

/-- **C28** for `extended_p_square`. -/
theorem C28_epsq_transparent (ps : List K) (h : List (Op K Unit)) :
    (epsqSet ps).answer h () = (epsqSet ps).answer (onlyPushes (pushes h)) () := by
  obtain ⟨s, e, I⟩ := epsq_exec ps h
  obtain ⟨t, f, J⟩ := epsq_exec ps (onlyPushes (Q := Unit) (pushes h))
  rw [pushes_only] at J
  unfold RMachine.answer
  rw [e, f, Res.val_bind, Res.val_bind]
  simp only [epsqSet, (psqInv_unique I J).1]
  cases epsqResult ps.length t.heights <;> rfl

/-! ## C54: affine equivariance -/

theorem insertionSort_affine {a b : K} (ha : 0 < a) (l : List K) :
    (l.map fun x => a * x + b).insertionSort (· ≤ ·)
      = (l.insertionSort (· ≤ ·)).map fun x => a * x + b := by
  apply List.Perm.eq_of_pairwise (le := (· ≤ ·))
  · intro x y _ _ h1 h2; exact le_antisymm h1 h2
  · exact List.pairwise_insertionSort (· ≤ ·) _
  · rw [List.pairwise_map]
    exact (List.pairwise_insertionSort (· ≤ ·) l).imp fun h => (affine_le ha _ _).2 h
  · exact (List.perm_insertionSort (· ≤ ·) _).trans
      ((List.perm_insertionSort (· ≤ ·) l).map _).symm

theorem markersOf_affine {a b : K} (ha : 0 < a) {m : ℕ} (hm : 0 < m) (f : ℕ → K) {xs : List K}
    (h : m ≤ xs.length) : Agree m (markersOf m f (xs.map fun x => a * x + b))
      ((markersOf m f xs).image a b) := by
  have e : ∀ l : List K, unitW (l.map fun x => a * x + b)
      = (unitW l).map fun p => (a * p.1 + b, p.2) := by
    intro l; simp [unitW, Function.comp_def]
  unfold markersOf
  rw [← List.map_take, ← List.map_drop, insertionSort_affine ha, e, e]
  apply pRun_image ha hm
  rw [unitW_length, List.length_insertionSort, List.length_take, min_eq_left h]

/-- **C54** `p_square_quantile`: rescaling the data rescales the estimate. -/
theorem C54_psq (p : K) {a b : K} (ha : 0 < a) (xs : List K) (h : 5 ≤ xs.length) :
    (psqQuantileSet p).answer (onlyPushes (xs.map fun x => a * x + b)) ()
      = (fun v => a * v + b) <$> (psqQuantileSet p).answer (onlyPushes xs) () := by
  rw [C22_algorithm p _ (by rw [pushes_only]; simpa using h),
    C22_algorithm p _ (by rwa [pushes_only]), pushes_only, pushes_only, Res.map_val]
  congr 1
  exact (markersOf_affine ha (by norm_num) _ h 2 (by norm_num)).1

/-- **C54** `p_square_cumulative_distribution`: the heights are rescaled, the cumulative values stay. -/
theorem C54_psq_cumul {cells : ℕ} (hc : 0 < cells) {a b : K} (ha : 0 < a) (xs : List K)
    (h : cells + 1 ≤ xs.length) :
    (psqCumulSet cells).answer (onlyPushes (xs.map fun x => a * x + b)) ()
      = (fun r => r.map fun p => (a * p.1 + b, p.2))
          <$> (psqCumulSet cells).answer (onlyPushes xs) () := by
  rw [C23_algorithm hc _ (by rw [pushes_only]; simpa using h),
    C23_algorithm hc _ (by rwa [pushes_only]), pushes_only, pushes_only, Res.map_val, List.map_map]
  congr 1
  apply List.map_congr_left
  intro i hi
  have := markersOf_affine (b := b) ha (show 0 < cells + 1 by omega) (cellFractions cells) h i
    (List.mem_range.1 hi)
  simp only [Function.comp, this.1, this.2, List.length_map]
  rfl

/-- **C54** `extended_p_square`. -/
theorem C54_epsq (ps : List K) {a b : K} (ha : 0 < a) (xs : List K)
    (h : 2 * ps.length + 3 ≤ xs.length) :
    (epsqSet ps).answer (onlyPushes (xs.map fun x => a * x + b)) ()
      = (fun r => r.map fun v => a * v + b) <$> (epsqSet ps).answer (onlyPushes xs) () := by
  rw [C24_algorithm ps _ (by rw [pushes_only]; simpa using h),
    C24_algorithm ps _ (by rwa [pushes_only]), pushes_only, pushes_only, Res.map_val, List.map_map]
  congr 1
  apply List.map_congr_left
  intro i hi
  rw [List.mem_range'_1] at hi
  exact (markersOf_affine ha (by omega) _ h (2 * i) (by omega)).1

/-! ## C56: always defined -/

/-- **C56** Every history of pushes and extractions on `p_square_quantile` yields an ordinary value, for any
number of samples. -/
theorem C56_psq (p : K) (h : List (Op K Unit)) : ∃ v, (psqQuantileSet p).answer h () = .val v := by
  rcases Nat.lt_or_ge (pushes h).length 5 with h5 | h5
  · exact ⟨_, C22_before_five p h h5⟩
  · exact ⟨_, C22_algorithm p h h5⟩

/-- **C56** … on `p_square_cumulative_distribution` with at least one cell (the cumulative values are NaN
exactly when the set is empty). -/
theorem C56_psq_cumul {b : ℕ} (hb : 0 < b) (h : List (Op K Unit)) :
    ∃ r, (psqCumulSet b).answer h () = .val r ∧ r.length = b + 1 := by
  obtain ⟨s, e, I⟩ := psqCumul_exec hb h
  obtain ⟨s', r, e', -, -, hr⟩ := psqCumul_query_inv I
  have hl := psqInv_len I.m
  refine ⟨r, ?_, ?_⟩
  · unfold RMachine.answer
    simp only [e, Res.val_bind, e', Res.pure_eq]
  · unfold psqHist at hr
    rw [mapRes_val (g := fun i => ((s.m.heights[i]?).getD 0,
      fdiv ((s.m.pos[i]?).getD 0) (s.m.cnt : K)))] at hr
    · rw [Res.val.injEq] at hr
      rw [← hr]
      simp [hl]
    · intro i hi
      have h1 := List.mem_range.1 hi
      have h2 : i < s.m.pos.length := by omega
      simp [getAt_lt h1, getAt_lt h2, h1, h2]

/-- **C56** … on `extended_p_square`. -/
theorem C56_epsq (ps : List K) (h : List (Op K Unit)) :
    ∃ r, (epsqSet ps).answer h () = .val r ∧ r.length = ps.length := by
  obtain ⟨s, e, I⟩ := epsq_exec ps h
  refine ⟨(List.range' 1 ps.length).map fun i => (s.heights[2 * i]?).getD 0, ?_, by simp⟩
  unfold RMachine.answer
  rw [e, Res.val_bind]
  simp only [epsqSet, epsqResult]
  rw [mapRes_val (g := fun i => (s.heights[2 * i]?).getD 0)]
  · rfl
  · intro i hi
    rw [List.mem_range'_1] at hi
    have hl : 2 * i < s.heights.length := by rw [(psqInv_len I).1]; omega
    rw [getAt_lt hl]
    simp [hl]

/-! ## Concrete cases -/

/-- Fourteen samples, with ties, used in the concrete cases. -/
def psqDemo : List ℚ := [3, 1, 4, 1, 5, 9, 2, 6, 7, 3, 5, 2, 8, 4]

example : 5 ≤ (pushes (onlyPushes (Q := Unit) psqDemo)).length := by decide +kernel

example : (psqQuantileSet (1 / 4)).answer (onlyPushes psqDemo) () = .val (911 / 324) := by
  decide +kernel

example : (psqCumulSet 3).answer (onlyPushes psqDemo) ()
    = .val [(1, .val (1 / 14)), (29 / 12, .val (5 / 14)), (19 / 3, .val (5 / 7)), (9, .val 1)] := by
  decide +kernel

example : (epsqSet [1 / 4, 1 / 2, 3 / 4]).answer (onlyPushes psqDemo) () = .val [8 / 3, 4, 6] := by
  decide +kernel

end Acc
