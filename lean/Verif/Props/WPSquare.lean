import Verif.Proofs.WPSquare
import Verif.Props.PSquare
import Verif.Props.PSquareInterp

/-!
# Properties of the weighted P-square estimators (C39, C40, C41, share of C28, C35, C54, C56)

`pushes h` is the stream of pairs (sample, weight) in the history `h`.
-/

set_option linter.unusedSectionVars false

namespace Acc

variable {K : Type} [Field K] [LinearOrder K] [IsStrictOrderedRing K]

open Spec

/-! ## Executions -/

theorem wquantile_des (p : K) : ∀ n0 W, (fun n0 W => (Res.val (wpsqQuantileDes p n0 W) : Res (List K))) n0 W
    = .val (tab 5 fun i => n0 + (W - n0) * quantileFractions p i) := by
  intro n0 W; simp only [wquantileDes_eq]

theorem wquantile_exec (p : K) (h : List (Op (K × K) Unit)) :
    ∃ s, (wpsqQuantileSet p).exec (wpsqQuantileSet p).init h = .val s ∧
      wpsqRun 5 5 (fun n0 W => .val (wpsqQuantileDes p n0 W)) (pushes h) = .val s ∧
      s.WF 5 5 (pushes h) := by
  have := RMachine.exec_inv (wpsqQuantileSet p)
    (fun s ps => wpsqRun 5 5 (fun n0 W => .val (wpsqQuantileDes p n0 W)) ps = .val s ∧ s.WF 5 5 ps)
    (fun s ps x I => by
      obtain ⟨s', e, W⟩ := wpsqPush_wf (by norm_num) le_rfl
        (fun n0 W => ⟨_, wquantile_des p n0 W⟩) I.2 x
      exact ⟨s', e, by rw [wpsqRun_snoc, I.1, Res.val_bind, e], W⟩)
    (fun s ps q I => by
      refine ⟨s, s.heights[2]'(by rw [(wpsq_len I.2).1]; norm_num), ?_, I⟩
      simp only [wpsqQuantileSet]
      rw [getAt_lt (by rw [(wpsq_len I.2).1]; norm_num)]
      rfl)
    (wpsqQuantileSet p).init [] ⟨rfl, wpsqInit_wf (by norm_num)⟩ h
  simpa using this

theorem wepsq_exec {ps : List K} (h0 : ps ≠ []) (h : List (Op (K × K) Unit)) :
    ∃ s, (wepsqSet ps).exec (wepsqSet ps).init h = .val s ∧
      wpsqRun (2 * ps.length + 3) (2 * ps.length + 3) (wepsqDes ps) (pushes h) = .val s ∧
      s.WF (2 * ps.length + 3) (2 * ps.length + 3) (pushes h) := by
  have := RMachine.exec_inv (wepsqSet ps)
    (fun s l => wpsqRun (2 * ps.length + 3) (2 * ps.length + 3) (wepsqDes ps) l = .val s ∧
      s.WF (2 * ps.length + 3) (2 * ps.length + 3) l)
    (fun s l x I => by
      obtain ⟨s', e, W⟩ := wpsqPush_wf (by omega) le_rfl
        (fun n0 W => ⟨_, wepsqDes_eq h0 n0 W⟩) I.2 x
      exact ⟨s', e, by rw [wpsqRun_snoc, I.1, Res.val_bind, e], W⟩)
    (fun s l q I => by
      refine ⟨s, (List.range' 1 ps.length).map fun i => (s.heights[2 * i]?).getD 0, ?_, I⟩
      simp only [wepsqSet]
      rw [epsqResult_total (by rw [(wpsq_len I.2).1]; omega)]
      rfl)
    (wepsqSet ps).init [] ⟨rfl, wpsqInit_wf (by omega)⟩ h
  simpa using this

theorem weightsOf_perm {m : ℕ} {l ps : List (K × K)} (hp : l.Perm (ps.take m)) :
    pTotal (l ++ ps.drop m) = pTotal ps := by
  rw [pTotal_append, show pTotal l = pTotal (ps.take m) from (hp.map Prod.snd).sum_eq,
    ← pTotal_append, List.take_append_drop]

/-! ## C39: weighted_p_square_quantile -/

/-- **C39** Refinement: with positive weights and at least five samples the accumulator holds the state of
the weighted P-square algorithm started on the first five samples in order, and returns the height of its
middle marker. -/
theorem C39_algorithm (p : K) (h : List (Op (K × K) Unit)) (h5 : 5 ≤ (pushes h).length)
    (hw : ∀ q ∈ pushes h, 0 < q.2) :
    ∃ l : List (K × K), l.Perm ((pushes h).take 5) ∧ l.Pairwise (fun a b => a.1 ≤ b.1) ∧
      (wpsqQuantileSet p).answer h ()
        = .val ((pRun 5 (quantileFractions p) l ((pushes h).drop 5)).q 2) := by
  obtain ⟨s, e, er, -⟩ := wquantile_exec p h
  obtain ⟨s', e', hh, -⟩ := wpsqRun_alg (by norm_num) (quantileFractions p) (wquantile_des p)
    (pushes h) hw h5
  rw [er, Res.val.injEq] at e'
  subst e'
  obtain ⟨hp, hs⟩ := selSort_spec 5 ((pushes h).take 5) (by simp [h5])
  refine ⟨_, hp, hs, ?_⟩
  unfold RMachine.answer
  rw [e, Res.val_bind]
  simp only [wpsqQuantileSet, hh]
  rw [getAt_tab _ (by norm_num)]
  rfl

/-- **C39** The invariants: heights non-decreasing with the exact extremes outside, positions strictly
increasing with the sum of the weights as last. -/
theorem C39_invariants (p : K) (h : List (Op (K × K) Unit)) (h5 : 5 ≤ (pushes h).length)
    (hw : ∀ q ∈ pushes h, 0 < q.2) :
    ∃ s, (wpsqQuantileSet p).exec (wpsqQuantileSet p).init h = .val s ∧
      s.heights.length = 5 ∧ s.pos.length = 5 ∧
      s.heights.Pairwise (· ≤ ·) ∧ s.pos.Pairwise (· < ·) ∧
      s.pos.getLast? = some ((pushes h).map Prod.snd).sum ∧
      (∃ a, s.heights.head? = some a ∧ IsLeast {x | x ∈ (pushes h).map Prod.fst} a) ∧
      (∃ b, s.heights.getLast? = some b ∧ IsGreatest {x | x ∈ (pushes h).map Prod.fst} b) := by
  obtain ⟨s, e, er, W⟩ := wquantile_exec p h
  obtain ⟨s', e', hh, hp⟩ := wpsqRun_alg (by norm_num) (quantileFractions p) (wquantile_des p)
    (pushes h) hw h5
  rw [er, Res.val.injEq] at e'
  subst e'
  obtain ⟨hperm, hs⟩ := selSort_spec 5 ((pushes h).take 5) (by simp [h5])
  have hpos : ∀ q ∈ selSort 5 ((pushes h).take 5) ++ (pushes h).drop 5, 0 < q.2 := by
    intro q hq
    apply hw q
    rcases List.mem_append.1 hq with hq | hq
    · exact List.mem_of_mem_take (hperm.mem_iff.1 hq)
    · exact List.mem_of_mem_drop hq
  have G := pRun_good (m := 5) (by norm_num) (quantileFractions p)
    (by rw [hperm.length_eq]; simp [h5]) hs hpos
  obtain ⟨M, hM, -, hq, hmin, hmax, -⟩ := W.after h5
  refine ⟨s, e, by simp [hh], by simp [hp], by rw [hh]; exact tab_sorted G.toOrd, ?_, ?_,
    ⟨M.q 0, ?_, hmin⟩, ⟨M.q 4, ?_, hmax⟩⟩
  · rw [hp, List.pairwise_iff_getElem]
    intro i j hi hj hij
    rw [tab_getElem, tab_getElem]
    exact G.n_mono hij (by simpa using hj)
  · rw [hp]
    have := G.last
    rw [weightsOf_perm hperm] at this
    exact congrArg some this
  · rw [hM]; rfl
  · rw [hM]; rfl

/-- **C39** The estimate lies within the data; this needs no assumption on the weights. -/
theorem C39_within (p : K) (h : List (Op (K × K) Unit)) (h5 : 5 ≤ (pushes h).length) :
    ∃ v, (wpsqQuantileSet p).answer h () = .val v ∧
      (∃ a ∈ (pushes h).map Prod.fst, a ≤ v) ∧ (∃ b ∈ (pushes h).map Prod.fst, v ≤ b) := by
  obtain ⟨s, e, -, W⟩ := wquantile_exec p h
  obtain ⟨M, hM, -, hq, hmin, hmax, -⟩ := W.after h5
  refine ⟨M.q 2, ?_, ⟨_, hmin.1, hq.ord.q_mono (i := 0) (by norm_num) (by norm_num)⟩,
    ⟨_, hmax.1, hq.ord.q_mono (j := 4) (by norm_num) (by norm_num)⟩⟩
  unfold RMachine.answer
  rw [e, Res.val_bind]
  simp only [wpsqQuantileSet, hM]
  rw [getAt_tab _ (by norm_num)]
  rfl

/-- **C29** `median` of a weighted set: the weighted P-square estimate for 1/2. -/
theorem C29_weighted_median (h : List (Op (K × K) Unit)) (h5 : 5 ≤ (pushes h).length)
    (hw : ∀ q ∈ pushes h, 0 < q.2) :
    ∃ l : List (K × K), l.Perm ((pushes h).take 5) ∧ l.Pairwise (fun a b => a.1 ≤ b.1) ∧
      (wmedianSet (K := K)).answer h ()
        = .val ((pRun 5 (quantileFractions (1 / 2)) l ((pushes h).drop 5)).q 2) :=
  C39_algorithm (1 / 2) h h5 hw

/-! ## C40: weighted_p_square_cumulative_distribution -/

/-- Invariant of the cumulative distribution. -/
structure WPsqCumulSt.Inv (b : ℕ) (s : WPsqCumulSt K) (ps : List (K × K)) : Prop where
  run : wpsqRun (b + 1) b (fun n0 W => .val (wpsqCumulDes b n0 W)) ps = .val s.m
  wf : s.m.WF (b + 1) b ps
  clean : s.dirty = false → psqHist s.m.heights s.m.pos s.m.wsum = .val s.hist

theorem psqHist_any {hs ns : List K} (h : hs.length = ns.length) (W : K) :
    psqHist hs ns W = .val ((List.range hs.length).map fun i =>
      ((hs[i]?).getD 0, fdiv ((ns[i]?).getD 0) W)) := by
  unfold psqHist
  rw [mapRes_val]
  intro i hi
  have hi := List.mem_range.1 hi
  have h2 : i < ns.length := by omega
  rw [getAt_lt hi, Res.val_bind, getAt_lt h2, Res.val_bind]
  simp [hi, h2]

theorem wpsqCumul_query {b : ℕ} {s : WPsqCumulSt K} {ps : List (K × K)} (I : s.Inv b ps) :
    ∃ s' r, (wpsqCumulSet b).query s () = .val (s', r) ∧ s'.Inv b ps ∧ s'.m = s.m ∧
      psqHist s.m.heights s.m.pos s.m.wsum = .val r := by
  have hl := wpsq_len I.wf
  simp only [wpsqCumulSet]
  by_cases hd : s.dirty = true
  · rw [if_pos hd, psqHist_any (by rw [hl.1, hl.2]), Res.val_bind, Res.pure_eq]
    exact ⟨_, _, rfl, ⟨I.run, I.wf, fun _ => psqHist_any (by rw [hl.1, hl.2]) _⟩, rfl, rfl⟩
  · rw [if_neg hd]
    exact ⟨_, _, rfl, I, rfl, I.clean (by simpa using hd)⟩

theorem wpsqCumul_exec {b : ℕ} (hb : 0 < b) (h : List (Op (K × K) Unit)) :
    ∃ s, (wpsqCumulSet b).exec (wpsqCumulSet b).init h = .val s ∧ s.Inv b (pushes h) := by
  have := RMachine.exec_inv (wpsqCumulSet (K := K) b) (fun s ps => s.Inv b ps)
    (fun s ps x I => by
      obtain ⟨m, e, W⟩ := wpsqPush_wf (desired := fun n0 W => .val (wpsqCumulDes b n0 W))
        (show 2 ≤ b + 1 by omega) (Nat.le_succ b)
        (fun n0 W => by obtain ⟨t, ht⟩ := wcumulDes_eq b n0 W; exact ⟨t, by rw [ht]⟩) I.wf x
      refine ⟨⟨m, s.hist, true⟩, ?_, ?_, W, fun h => by simp at h⟩
      · simp only [wpsqCumulSet]; rw [e]; rfl
      · rw [wpsqRun_snoc, I.run, Res.val_bind, e])
    (fun s ps q I => by
      obtain ⟨s', r, e, I', -⟩ := wpsqCumul_query I
      exact ⟨s', r, e, I'⟩)
    (wpsqCumulSet b).init [] ⟨rfl, wpsqInit_wf (by omega), fun h => by simp [wpsqCumulSet] at h⟩ h
  simpa using this

/-- **C40, partial** Without any assumption on the weights, the heights are non-decreasing from the minimum
to the maximum.  The last cumulative value is not 1: it is (weight of the greatest of the first `b + 1`
samples + the weights of all later samples) / (sum of weights).
Missing: the cumulative values need not be monotone and do not end at 1, see `C40_fails`. -/
theorem C40_partial {b : ℕ} (hb : 0 < b) (h : List (Op (K × K) Unit))
    (hn : b + 1 ≤ (pushes h).length) (hW : ((pushes h).map Prod.snd).sum ≠ 0) :
    ∃ (pts : List (K × K)) (top : K × K),
      (wpsqCumulSet b).answer h () = .val (pts.map fun p => (p.1, .val p.2)) ∧
      pts.length = b + 1 ∧ (pts.map Prod.fst).Pairwise (· ≤ ·) ∧
      (∃ a, (pts.map Prod.fst).head? = some a ∧ IsLeast {x | x ∈ (pushes h).map Prod.fst} a) ∧
      (∃ z, (pts.map Prod.fst).getLast? = some z ∧ IsGreatest {x | x ∈ (pushes h).map Prod.fst} z) ∧
      top ∈ (pushes h).take (b + 1) ∧ (∀ p ∈ (pushes h).take (b + 1), p.1 ≤ top.1) ∧
      (pts.map Prod.snd).getLast? = some ((top.2 + (((pushes h).drop (b + 1)).map Prod.snd).sum)
        / ((pushes h).map Prod.snd).sum) := by
  obtain ⟨s, e, I⟩ := wpsqCumul_exec hb h
  obtain ⟨s', r, e', -, -, hr⟩ := wpsqCumul_query I
  obtain ⟨M, hM, hN, hq, hmin, hmax, hlast⟩ := I.wf.after hn
  have hwsum : s.m.wsum = ((pushes h).map Prod.snd).sum := I.wf.wsum
  have htl : ((pushes h).take (b + 1)).length = b + 1 := by simp [hn]
  obtain ⟨hperm, hs⟩ := selSort_spec (b + 1) ((pushes h).take (b + 1)) htl
  have hsl : (selSort (b + 1) ((pushes h).take (b + 1))).length = b + 1 := by
    rw [hperm.length_eq, htl]
  set l := selSort (b + 1) ((pushes h).take (b + 1)) with hldef
  refine ⟨tab (b + 1) fun i => (M.q i, M.n i / ((pushes h).map Prod.snd).sum), l[b]'(by omega),
    ?_, by simp, ?_, ⟨M.q 0, ?_, hmin⟩, ⟨M.q b, ?_, by simpa using hmax⟩, ?_, ?_, ?_⟩
  · unfold RMachine.answer
    simp only [e, Res.val_bind, e', Res.pure_eq]
    rw [hM, hN, psqHist_any (by simp), Res.val.injEq] at hr
    rw [← hr]
    congr 1
    simp only [tab, List.length_map, List.length_range, List.map_map]
    apply List.map_congr_left
    intro i hi
    have hi := List.mem_range.1 hi
    simp [hi, hwsum, fdiv_ne hW]
  · have : (tab (b + 1) fun i => (M.q i, M.n i / ((pushes h).map Prod.snd).sum)).map Prod.fst
        = tab (b + 1) M.q := by simp [tab]
    rw [this]
    exact tab_sorted (M := ⟨M.q, fun i => (i : K)⟩) hq.ord
  · simp [tab, List.range_succ_eq_map]
  · simp [tab, List.range_succ]
  · exact hperm.mem_iff.1 (List.getElem_mem _)
  · intro p hp
    obtain ⟨i, hi, rfl⟩ := List.mem_iff_getElem.1 (hperm.mem_iff.2 hp)
    rcases Nat.lt_or_eq_of_le (show i ≤ b by omega) with hlt | heq
    · exact List.pairwise_iff_getElem.mp hs i b hi (by omega) hlt
    · simp [heq]
  · have hb1 : M.n b = (l[b]'(by omega)).2 + pTotal ((pushes h).drop (b + 1)) := by
      simp only [Nat.add_sub_cancel] at hlast
      rw [hlast]
      congr 1
      simp only [wStart, lt_irrefl, if_false]
      simp [show b < l.length by omega]
    simp only [tab, List.range_succ, List.map_append, List.map_cons, List.map_nil, List.getLast?_append,
      List.getLast?_singleton, Option.some_or, hb1]
    rfl

/-- **C40 fails** With positive weights the last cumulative value is less than 1, always. -/
theorem C40_last_below_one {b : ℕ} (hb : 0 < b) (h : List (Op (K × K) Unit))
    (hn : b + 1 ≤ (pushes h).length) (hw : ∀ q ∈ pushes h, 0 < q.2) :
    ∃ (pts : List (K × K)) (v : K),
      (wpsqCumulSet b).answer h () = .val (pts.map fun p => (p.1, .val p.2)) ∧
      (pts.map Prod.snd).getLast? = some v ∧ v < 1 := by
  have sum_pos : ∀ l : List (K × K), (∀ q ∈ l, 0 < q.2) → l ≠ [] → 0 < (l.map Prod.snd).sum := by
    intro l hl hne
    apply List.sum_pos
    · intro x hx
      obtain ⟨q, hq, rfl⟩ := List.mem_map.1 hx
      exact hl q hq
    · simpa using hne
  have hne : pushes h ≠ [] := by
    intro e; rw [e] at hn; simp at hn
  have hWp := sum_pos _ hw hne
  obtain ⟨pts, top, ea, -, -, -, -, ht, -, hl⟩ := C40_partial hb h hn hWp.ne'
  refine ⟨pts, _, ea, hl, ?_⟩
  rw [div_lt_one hWp]
  have hsplit : ((pushes h).map Prod.snd).sum = (((pushes h).take (b + 1)).map Prod.snd).sum
      + (((pushes h).drop (b + 1)).map Prod.snd).sum := by
    rw [← List.sum_append, ← List.map_append, List.take_append_drop]
  rw [hsplit, add_lt_add_iff_right]
  obtain ⟨l1, l2, hl12⟩ := List.append_of_mem ht
  have hlen : l1 ++ l2 ≠ [] := by
    intro e
    have h1 := congrArg List.length hl12
    have h2 := congrArg List.length e
    simp at h1 h2
    simp [h2] at h1
    omega
  have := sum_pos (l1 ++ l2) (by
    intro q hq
    apply hw q
    apply List.mem_of_mem_take (i := b + 1)
    rw [hl12]
    simp at hq ⊢
    tauto) hlen
  rw [hl12]
  simp at this ⊢
  linarith

/-- **C40 fails** A concrete stream: unit weights, two cells; the values neither end at 1 nor increase. -/
theorem C40_fails :
    (wpsqCumulSet 2).answer (onlyPushes [(1, 1), (2, 1), (3, (1 : ℚ))]) ()
      = .val [(1, .val (1 / 3)), (2, .val (2 / 3)), (3, .val (1 / 3))] := by
  decide +kernel

/-! ## C41: weighted_extended_p_square -/

/-- **C41** Refinement, as C39. -/
theorem C41_algorithm {ps : List K} (h0 : ps ≠ []) (h : List (Op (K × K) Unit))
    (hn : 2 * ps.length + 3 ≤ (pushes h).length) (hw : ∀ q ∈ pushes h, 0 < q.2) :
    ∃ l : List (K × K), l.Perm ((pushes h).take (2 * ps.length + 3)) ∧
      l.Pairwise (fun a b => a.1 ≤ b.1) ∧
      (wepsqSet ps).answer h () = .val ((List.range' 1 ps.length).map fun i =>
        (pRun (2 * ps.length + 3) (extendedFractions ps) l
          ((pushes h).drop (2 * ps.length + 3))).q (2 * i)) := by
  obtain ⟨s, e, er, -⟩ := wepsq_exec h0 h
  obtain ⟨s', e', hh, -⟩ := wpsqRun_alg (show 2 ≤ 2 * ps.length + 3 by omega) (extendedFractions ps)
    (wepsqDes_eq h0) (pushes h) hw hn
  rw [er, Res.val.injEq] at e'
  subst e'
  obtain ⟨hp, hs⟩ := selSort_spec (2 * ps.length + 3) ((pushes h).take (2 * ps.length + 3))
    (by simp [hn])
  refine ⟨_, hp, hs, ?_⟩
  unfold RMachine.answer
  rw [e, Res.val_bind]
  simp only [wepsqSet, hh]
  unfold epsqResult
  rw [mapRes_val]
  · rfl
  · intro i hi
    rw [List.mem_range'_1] at hi
    rw [getAt_tab _ (by omega)]

/-- **C41** The estimates are non-decreasing and within the data; no assumption on the weights. -/
theorem C41_ordered {ps : List K} (h0 : ps ≠ []) (h : List (Op (K × K) Unit))
    (hn : 2 * ps.length + 3 ≤ (pushes h).length) :
    ∃ vs, (wepsqSet ps).answer h () = .val vs ∧ vs.length = ps.length ∧ vs.Pairwise (· ≤ ·) ∧
      ∀ v ∈ vs, (∃ a ∈ (pushes h).map Prod.fst, a ≤ v) ∧ (∃ b ∈ (pushes h).map Prod.fst, v ≤ b) := by
  obtain ⟨s, e, -, W⟩ := wepsq_exec h0 h
  obtain ⟨M, hM, -, hq, hmin, hmax, -⟩ := W.after hn
  refine ⟨(List.range' 1 ps.length).map fun i => M.q (2 * i), ?_, by simp, ?_, ?_⟩
  · unfold RMachine.answer
    rw [e, Res.val_bind]
    simp only [wepsqSet, hM]
    unfold epsqResult
    rw [mapRes_val (g := fun i => M.q (2 * i))]
    · rfl
    · intro i hi
      rw [List.mem_range'_1] at hi
      rw [getAt_tab _ (by omega)]
  · rw [List.pairwise_iff_getElem]
    intro i j hi hj hij
    simp only [List.length_map, List.length_range'] at hi hj
    simp only [List.getElem_map, List.getElem_range', one_mul]
    exact hq.ord.q_mono (by omega) (by omega)
  · intro v hv
    obtain ⟨i, hi, rfl⟩ := List.mem_map.mp hv
    rw [List.mem_range'_1] at hi
    exact ⟨⟨_, hmin.1, hq.ord.q_mono (i := 0) (by omega) (by omega)⟩,
      ⟨_, hmax.1, hq.ord.q_mono (j := 2 * ps.length + 3 - 1) (by omega) (by omega)⟩⟩

/-- **C25/C41** The interpolated quantile of a weighted set interpolates what `weighted_extended_p_square`
returns for the same stream. -/
theorem C41_quantile (kind : Interp) (nan : Bool) {ps : List K} (hp : ps.Pairwise (· < ·))
    (h0 : 0 < ps.length) (hk : kind = .quadratic → ps.length ≠ 2) (h : List (Op (K × K) K)) (p : K) :
    ∃ vs, (wepsqSet ps).answer (onlyPushes (pushes h)) () = .val vs ∧ vs.length = ps.length ∧
      (wepsqQuantileSet kind nan ps).answer h p = .val (epsqQuantile kind nan ps vs p) := by
  have hne : ps ≠ [] := List.ne_nil_of_length_pos h0
  have hquery : ∀ (s : WPsqSt K) (l : List (K × K)) (q : K),
      s.WF (2 * ps.length + 3) (2 * ps.length + 3) l →
      (wepsqQuantileSet kind nan ps).query s q = .val (s, epsqQuantile kind nan ps
        ((List.range' 1 ps.length).map fun i => (s.heights[2 * i]?).getD 0) q) := by
    intro s l q W
    simp only [wepsqQuantileSet]
    rw [epsqResult_total (by rw [(wpsq_len W).1]; omega), Res.val_bind]
    apply asResult_val
    rcases C25_defined kind nan
      (hs := (List.range' 1 ps.length).map fun i => (s.heights[2 * i]?).getD 0)
      hp h0 (by simp) hk q with ⟨-, h⟩ | ⟨-, v, h⟩
    · rw [h]; cases nan <;> simp
    · exact Or.inr (Or.inr ⟨v, h⟩)
  have := RMachine.exec_inv (wepsqQuantileSet kind nan ps)
    (fun s l => wpsqRun (2 * ps.length + 3) (2 * ps.length + 3) (wepsqDes ps) l = .val s ∧
      s.WF (2 * ps.length + 3) (2 * ps.length + 3) l)
    (fun s l x I => by
      obtain ⟨s', e, W⟩ := wpsqPush_wf (by omega) le_rfl
        (fun n0 W => ⟨_, wepsqDes_eq hne n0 W⟩) I.2 x
      exact ⟨s', e, by rw [wpsqRun_snoc, I.1, Res.val_bind, e], W⟩)
    (fun s l q I => ⟨s, _, hquery s l q I.2, I⟩)
    (wepsqQuantileSet kind nan ps).init [] ⟨rfl, wpsqInit_wf (by omega)⟩ h
  obtain ⟨s, e, er, W⟩ := this
  rw [List.nil_append] at er W
  obtain ⟨t, f, fr, -⟩ := wepsq_exec hne (onlyPushes (Q := Unit) (pushes h))
  rw [pushes_onlyPushes, er, Res.val.injEq] at fr
  subst fr
  refine ⟨(List.range' 1 ps.length).map fun i => (s.heights[2 * i]?).getD 0, ?_, by simp, ?_⟩
  · unfold RMachine.answer
    rw [f, Res.val_bind]
    simp only [wepsqSet]
    rw [epsqResult_total (by rw [(wpsq_len W).1]; omega)]
    rfl
  · unfold RMachine.answer
    rw [e, Res.val_bind, hquery s _ p W, Res.val_bind]
    rfl

/-- **C56 fails** Without probabilities `weighted_extended_p_square` reads out of range at the fourth
sample (three markers are still created). -/
theorem C56_wepsq_empty_ub (a b c d : K × K) :
    (wepsqSet (K := K) []).answer (onlyPushes [a, b, c, d]) () = .ub := by
  obtain ⟨s, e, W⟩ : ∃ s : WPsqSt K, wpsqRun 3 3 (wepsqDes []) [a, b, c] = .val s ∧
      s.WF 3 3 [a, b, c] := by
    obtain ⟨s1, e1, W1⟩ := wpsqPush_before (summed := 3) (show 2 ≤ 3 by norm_num) le_rfl (wepsqDes [])
      (wpsqInit_wf (K := K) (m := 3) (by norm_num)) a (by simp)
    obtain ⟨s2, e2, W2⟩ := wpsqPush_before (by norm_num) le_rfl (wepsqDes []) W1 b (by simp)
    obtain ⟨s3, e3, W3⟩ := wpsqPush_before (by norm_num) le_rfl (wepsqDes []) W2 c (by simp)
    refine ⟨s3, ?_, W3⟩
    simp only [wpsqRun, foldRes, e1, e2, e3, Res.val_bind]
  obtain ⟨M, hM, hN, hq, -⟩ := W.after (by simp)
  have h4 : wpsqPush 3 3 (wepsqDes []) s d = .ub := by
    rw [wpsqPush_later (by norm_num) hq d (by rw [W.cnt]; simp) hM hN]
    simp [wepsqDes, getAt]
  have hrun : wpsqRun 3 3 (wepsqDes []) ([a, b, c] ++ [d]) = .ub := by
    rw [wpsqRun_snoc, e, Res.val_bind, h4]
  have : (wepsqSet (K := K) []).exec (wepsqSet []).init (onlyPushes [a, b, c, d]) = .ub := by
    simp only [wpsqRun, foldRes, List.cons_append, List.nil_append] at hrun
    simp only [onlyPushes, List.map, RMachine.exec, RMachine.exec1, wepsqSet, List.length_nil,
      Nat.mul_zero, Nat.zero_add]
    exact hrun
  unfold RMachine.answer
  rw [this]
  rfl

/-! ## C28 and C56 -/

/-- **C56/C28** Any history on `weighted_p_square_quantile`, with any weights, yields an ordinary value, the
same as without the earlier extractions. -/
theorem C28_wpsq_transparent (p : K) (h : List (Op (K × K) Unit)) :
    ∃ v, (wpsqQuantileSet p).answer h () = .val v ∧
      (wpsqQuantileSet p).answer (onlyPushes (pushes h)) () = .val v := by
  obtain ⟨s, e, er, W⟩ := wquantile_exec p h
  obtain ⟨t, f, fr, -⟩ := wquantile_exec p (onlyPushes (Q := Unit) (pushes h))
  rw [pushes_onlyPushes, er, Res.val.injEq] at fr
  subst fr
  have hl : 2 < s.heights.length := by rw [(wpsq_len W).1]; norm_num
  refine ⟨s.heights[2], ?_, ?_⟩
  · unfold RMachine.answer
    rw [e, Res.val_bind]
    simp only [wpsqQuantileSet]
    rw [getAt_lt hl]
    rfl
  · unfold RMachine.answer
    rw [f, Res.val_bind]
    simp only [wpsqQuantileSet]
    rw [getAt_lt hl]
    rfl

/-- **C56/C28** … on `weighted_p_square_cumulative_distribution`. -/
theorem C28_wpsq_cumul_transparent {b : ℕ} (hb : 0 < b) (h : List (Op (K × K) Unit)) :
    ∃ r, (wpsqCumulSet b).answer h () = .val r ∧ r.length = b + 1 ∧
      (wpsqCumulSet b).answer (onlyPushes (pushes h)) () = .val r := by
  obtain ⟨s, e, I⟩ := wpsqCumul_exec hb h
  obtain ⟨t, f, J⟩ := wpsqCumul_exec hb (onlyPushes (Q := Unit) (pushes h))
  have hm : s.m = t.m := by
    have := J.run
    rw [pushes_onlyPushes, I.run, Res.val.injEq] at this
    exact this
  obtain ⟨s', r, e', -, -, hr⟩ := wpsqCumul_query I
  obtain ⟨t', r', f', -, -, hr'⟩ := wpsqCumul_query J
  rw [← hm, hr, Res.val.injEq] at hr'
  subst hr'
  have hl := wpsq_len I.wf
  refine ⟨r, ?_, ?_, ?_⟩
  · unfold RMachine.answer
    simp only [e, Res.val_bind, e', Res.pure_eq]
  · rw [psqHist_any (by rw [hl.1, hl.2]), Res.val.injEq] at hr
    rw [← hr]
    simp [hl]
  · unfold RMachine.answer
    simp only [f, Res.val_bind, f', Res.pure_eq]

/-- **C56/C28** … on `weighted_extended_p_square` with non-empty probabilities. -/
theorem C28_wepsq_transparent {ps : List K} (h0 : ps ≠ []) (h : List (Op (K × K) Unit)) :
    ∃ r, (wepsqSet ps).answer h () = .val r ∧ r.length = ps.length ∧
      (wepsqSet ps).answer (onlyPushes (pushes h)) () = .val r := by
  obtain ⟨s, e, er, W⟩ := wepsq_exec h0 h
  obtain ⟨t, f, fr, -⟩ := wepsq_exec h0 (onlyPushes (Q := Unit) (pushes h))
  rw [pushes_onlyPushes, er, Res.val.injEq] at fr
  subst fr
  have hl : 2 * ps.length < s.heights.length := by rw [(wpsq_len W).1]; omega
  refine ⟨(List.range' 1 ps.length).map fun i => (s.heights[2 * i]?).getD 0, ?_, ?_, ?_⟩
  · unfold RMachine.answer
    rw [e, Res.val_bind]
    simp only [wepsqSet]
    rw [epsqResult_total hl]
    rfl
  · simp
  · unfold RMachine.answer
    rw [f, Res.val_bind]
    simp only [wepsqSet]
    rw [epsqResult_total hl]
    rfl

/-! ## C35: unit weights -/

/-- A sorted permutation of unit-weight pairs is the sorted stream. -/
theorem unit_sorted_unique {xs : List K} {l : List (K × K)} (hp : l.Perm (unitW xs))
    (hs : l.Pairwise (fun a b => a.1 ≤ b.1)) : l = unitW (xs.insertionSort (· ≤ ·)) := by
  have h1 : l = unitW (l.map Prod.fst) := by
    unfold unitW
    rw [List.map_map]
    conv_lhs => rw [← List.map_id l]
    apply List.map_congr_left
    intro p hpm
    have := unitW_one (hp.mem_iff.1 hpm)
    simp only [id, Function.comp]
    rw [← this]
  have h2 : (l.map Prod.fst).Perm xs := by
    have := hp.map Prod.fst
    simpa [unitW, Function.comp_def] using this
  have h3 : l.map Prod.fst = xs.insertionSort (· ≤ ·) := by
    apply List.Perm.eq_of_pairwise (le := (· ≤ ·)) _ _ (List.pairwise_insertionSort (· ≤ ·) xs)
      (h2.trans (List.perm_insertionSort (· ≤ ·) xs).symm)
    · intro a b _ _ hab hba; exact le_antisymm hab hba
    · rw [List.pairwise_map]; exact hs
  rw [h1, h3]

/-- **C35** With unit weights and at least five samples, `weighted_p_square_quantile` returns what
`p_square_quantile` returns. -/
theorem C35_psq (p : K) (xs : List K) (h5 : 5 ≤ xs.length) :
    (wpsqQuantileSet p).answer (onlyPushes (xs.map fun x => (x, 1))) ()
      = (psqQuantileSet p).answer (onlyPushes xs) () := by
  obtain ⟨l, hp, hs, e⟩ := C39_algorithm p (onlyPushes (Q := Unit) (xs.map fun x => (x, 1)))
    (by rw [pushes_onlyPushes]; simpa using h5) (by
      rw [pushes_onlyPushes]; intro q hq; obtain ⟨x, -, rfl⟩ := List.mem_map.1 hq; exact one_pos)
  rw [e, C22_algorithm p _ (by rwa [pushes_onlyPushes])]
  rw [pushes_onlyPushes] at hp
  rw [pushes_onlyPushes, pushes_onlyPushes]
  rw [← List.map_take] at hp
  rw [unit_sorted_unique hp hs, ← List.map_drop]
  rfl

/-- **C35** … and `weighted_extended_p_square` what `extended_p_square` returns. -/
theorem C35_epsq {ps : List K} (h0 : ps ≠ []) (xs : List K) (hn : 2 * ps.length + 3 ≤ xs.length) :
    (wepsqSet ps).answer (onlyPushes (xs.map fun x => (x, 1))) ()
      = (epsqSet ps).answer (onlyPushes xs) () := by
  obtain ⟨l, hp, hs, e⟩ := C41_algorithm h0 (onlyPushes (Q := Unit) (xs.map fun x => (x, 1)))
    (by rw [pushes_onlyPushes]; simpa using hn) (by
      rw [pushes_onlyPushes]; intro q hq; obtain ⟨x, -, rfl⟩ := List.mem_map.1 hq; exact one_pos)
  rw [e, C24_algorithm ps _ (by rwa [pushes_onlyPushes])]
  rw [pushes_onlyPushes] at hp
  rw [pushes_onlyPushes, pushes_onlyPushes]
  rw [← List.map_take] at hp
  rw [unit_sorted_unique hp hs, ← List.map_drop]
  rfl

/-- **C35 fails** for the cumulative distribution, even with unit weights. -/
theorem C35_cumul_fails :
    (wpsqCumulSet 2).answer (onlyPushes [(1, 1), (2, 1), (3, (1 : ℚ))]) ()
      ≠ (psqCumulSet 2).answer (onlyPushes [1, 2, 3]) () := by
  decide +kernel

/-! ## C54: affine equivariance -/

theorem minIdx_affine {a b : K} (ha : 0 < a) (l : List (K × K)) :
    minIdx (l.map fun p => (a * p.1 + b, p.2)) = minIdx l := by
  unfold minIdx
  rw [List.findIdx_map]
  congr 1
  funext p
  simp only [Function.comp_def, List.all_map, affine_le ha]

theorem selSort_affine {a b : K} (ha : 0 < a) (n : ℕ) (l : List (K × K)) :
    selSort n (l.map fun p => (a * p.1 + b, p.2)) = (selSort n l).map fun p => (a * p.1 + b, p.2) := by
  induction n generalizing l with
  | zero => rfl
  | succ n ih =>
    cases l with
    | nil => rfl
    | cons p t =>
      have hm := minIdx_affine (b := b) ha (p :: t)
      rw [List.map_cons] at hm ⊢
      unfold selSort
      rw [hm]
      cases minIdx (p :: t) with
      | zero => simp [ih]
      | succ d =>
        simp only [List.getElem?_map]
        cases t[d]? with
        | none => simp [ih]
        | some c =>
          simp only [Option.map_some, List.map_cons]
          rw [← ih, List.map_set]

/-- **C54** `weighted_p_square_quantile` is equivariant under increasing affine maps of the samples. -/
theorem C54_wpsq (p : K) {a b : K} (ha : 0 < a) (ps : List (K × K)) (h : 5 ≤ ps.length)
    (hw : ∀ q ∈ ps, 0 < q.2) :
    (wpsqQuantileSet p).answer (onlyPushes (ps.map fun q => (a * q.1 + b, q.2))) ()
      = (fun v => a * v + b) <$> (wpsqQuantileSet p).answer (onlyPushes ps) () := by
  have key : ∀ l : List (K × K), 5 ≤ l.length → (∀ q ∈ l, 0 < q.2) →
      (wpsqQuantileSet p).answer (onlyPushes l) ()
        = .val ((pRun 5 (quantileFractions p) (selSort 5 (l.take 5)) (l.drop 5)).q 2) := by
    intro l hl hlw
    obtain ⟨s, e, er, -⟩ := wquantile_exec p (onlyPushes (Q := Unit) l)
    obtain ⟨s', e', hh, -⟩ := wpsqRun_alg (by norm_num) (quantileFractions p) (wquantile_des p) l hlw hl
    rw [pushes_onlyPushes, e', Res.val.injEq] at er
    subst er
    unfold RMachine.answer
    rw [e, Res.val_bind]
    simp only [wpsqQuantileSet, hh]
    rw [getAt_tab _ (by norm_num)]
    rfl
  rw [key ps h hw, key _ (by simpa using h) (by
    intro q hq; obtain ⟨r, hr, rfl⟩ := List.mem_map.1 hq; exact hw r hr), Res.map_val]
  congr 1
  rw [← List.map_take, ← List.map_drop, selSort_affine ha]
  have hl : (selSort 5 (ps.take 5)).length = 5 := by
    rw [(selSort_spec 5 _ (by simp [h])).1.length_eq]; simp [h]
  exact (pRun_image ha (by norm_num) (quantileFractions p) hl (ps.drop 5) 2 (by norm_num)).1

/-! ## Concrete cases -/

/-- Weighted samples for the concrete cases. -/
def wpsqDemo : List (ℚ × ℚ) :=
  [(3, 2), (1, 1), (4, 1), (1, 3), (5, 1), (9, 2), (2, 1 / 2), (6, 4), (7, 1), (3, 2), (0, 3)]

example : ∀ q ∈ wpsqDemo, 0 < q.2 := by decide +kernel

example : ∃ v, (wpsqQuantileSet (1 / 4)).answer (onlyPushes wpsqDemo) () = .val v ∧ 0 ≤ v ∧ v ≤ 9 := by
  obtain ⟨v, e, ⟨a, ha, h1⟩, ⟨b, hb, h2⟩⟩ := C39_within (1 / 4 : ℚ) (onlyPushes wpsqDemo) (by decide)
  refine ⟨v, e, le_trans ?_ h1, h2.trans ?_⟩
  · clear h1; revert a; decide +kernel
  · clear h2; revert b; decide +kernel

end Acc
