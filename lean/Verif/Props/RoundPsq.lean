import Verif.Proofs.RoundPsq
import Verif.Props.Round

/-!
# C63: the P-square estimators in floating point arithmetic

`u ≤ 2/5` is two bits of precision; `Counts N` says that the marker positions up to `N` are representable.
-/

set_option linter.unusedSectionVars false

namespace Acc

variable {K : Type} [Field K] [LinearOrder K] [IsStrictOrderedRing K] {R : Rounding K} {u : K}

theorem psqQuantile_fl (hu : R.RelErr u) (hu5 : u ≤ 2 / 5) (p : Fl R) (h : List (Op (Fl R) Unit))
    (hN : R.Counts (max 5 (pushes h).length)) :
    ∃ s, (psqQuantileSet p).exec (psqQuantileSet p).init h = .val s ∧ s.FlInv 5 (pushes h) := by
  have := RMachine.exec_inv_upto (psqQuantileSet p) (max 5 (pushes h).length) (fun s xs => s.FlInv 5 xs)
    (fun s xs x hx I => psqPush_fl hu hu5 (by norm_num) hN (by rfl) x hx I)
    (fun s xs q I => by
      have hl : 2 < s.heights.length := by rw [I.len.1]; norm_num
      refine ⟨s, s.heights[2], ?_, I⟩
      simp only [psqQuantileSet, getAt_lt hl, Res.val_bind, Res.pure_eq])
    (psqQuantileSet p).init []
    (psqInit_fl (by norm_num) hN (le_max_left _ _) rfl rfl) h (by simp)
  simpa using this

/-- **C63** `p_square_quantile`: from five samples on the heights are non-decreasing, their first is the least and
their last the greatest sample, the positions are strictly increasing whole numbers from 1 to `n`; nothing undefined
happens and nothing becomes infinite or NaN. -/
theorem C63_quantile_invariants (hu : R.RelErr u) (hu5 : u ≤ 2 / 5) (p : Fl R) (h : List (Op (Fl R) Unit))
    (h5 : 5 ≤ (pushes h).length) (hN : R.Counts (pushes h).length) :
    ∃ s, (psqQuantileSet p).exec (psqQuantileSet p).init h = .val s ∧
      s.heights.length = 5 ∧ s.pos.length = 5 ∧
      s.heights.Pairwise (· ≤ ·) ∧ s.pos.Pairwise (· < ·) ∧ (∀ n ∈ s.pos, ∃ z : ℕ, n.val = z) ∧
      s.pos.head? = some 1 ∧ (∃ n, s.pos.getLast? = some n ∧ n.val = (pushes h).length) ∧
      (∃ a, s.heights.head? = some a ∧ IsLeast {x | x ∈ pushes h} a) ∧
      (∃ b, s.heights.getLast? = some b ∧ IsGreatest {x | x ∈ pushes h} b) := by
  obtain ⟨s, e, I⟩ := psqQuantile_fl hu hu5 p h (by rwa [max_eq_right h5])
  obtain ⟨q, z, hh, hp, ho, z0, zl, hmin, hmax⟩ := I.after h5
  have zle : ∀ i < 5, z i ≤ (pushes h).length := by
    intro i hi
    rcases Nat.lt_or_ge i 4 with c | c
    · exact (ho.z_mono c (by omega)).le.trans zl.le
    · rw [show i = 5 - 1 by omega]; exact zl.le
  refine ⟨s, e, I.len.1, I.len.2, ?_, ?_, ?_, ?_, ⟨((z 4 : ℕ) : Fl R), ?_, ?_⟩, ⟨q 0, ?_, hmin⟩, ⟨q 4, ?_, hmax⟩⟩
  · rw [hh, List.pairwise_iff_getElem]
    intro i j hi hj hij
    rw [tab_getElem, tab_getElem]
    exact ho.q_mono hij.le (by simpa using hj)
  · rw [hp, List.pairwise_iff_getElem]
    intro i j hi hj hij
    rw [tab_getElem, tab_getElem, Fl.lt_iff]
    have hj' : j < 5 := by simpa using hj
    rw [Fl.cast_val hN (zle i (by omega)), Fl.cast_val hN (zle j hj')]
    exact_mod_cast ho.z_mono hij hj'
  · rw [hp]
    intro n hn
    obtain ⟨i, hi, rfl⟩ := List.mem_map.1 hn
    exact ⟨z i, Fl.cast_val hN (zle i (List.mem_range.1 hi))⟩
  · rw [hp]
    show some ((z 0 : ℕ) : Fl R) = some 1
    rw [z0]
    congr 1
    apply Fl.ext
    rw [Fl.val_natCast, Nat.cast_one, R.one, Fl.val_one]
  · rw [hp]; rfl
  · rw [Fl.cast_val hN (zle 4 (by norm_num))]
    exact_mod_cast zl
  · rw [hh]; rfl
  · rw [hh]; rfl

/-- **C63** The estimate of `p_square_quantile` (and of `median`) lies within the data. -/
theorem C63_quantile_within (hu : R.RelErr u) (hu5 : u ≤ 2 / 5) (p : Fl R) (h : List (Op (Fl R) Unit))
    (h5 : 5 ≤ (pushes h).length) (hN : R.Counts (pushes h).length) :
    ∃ v, (psqQuantileSet p).answer h () = .val v ∧
      (∃ a ∈ pushes h, a ≤ v) ∧ (∃ b ∈ pushes h, v ≤ b) := by
  obtain ⟨s, e, I⟩ := psqQuantile_fl hu hu5 p h (by rwa [max_eq_right h5])
  obtain ⟨q, z, hh, hp, ho, z0, zl, hmin, hmax⟩ := I.after h5
  refine ⟨q 2, ?_, ⟨q 0, hmin.1, ho.q_mono (by norm_num) (by norm_num)⟩,
    ⟨q 4, hmax.1, ho.q_mono (by norm_num) (by norm_num)⟩⟩
  unfold RMachine.answer
  rw [e, Res.val_bind]
  simp only [psqQuantileSet, hh]
  rw [getAt_tab _ (by norm_num)]
  rfl

theorem epsqIncr_length (ps : List (Fl R)) : (epsqIncr ps).length = 2 * ps.length + 3 := by
  have : ∀ (prev : Fl R) (l : List (Fl R)), (interleave prev l).length = 2 * l.length := by
    intro prev l
    induction l generalizing prev with
    | nil => rfl
    | cons a l ih => simp [interleave, ih]; omega
  simp [epsqIncr, this]; ring

/-- **C63** `extended_p_square`: the estimates are non-decreasing and lie within the data. -/
theorem C63_extended (hu : R.RelErr u) (hu5 : u ≤ 2 / 5) (ps : List (Fl R)) (h : List (Op (Fl R) Unit))
    (hn : 2 * ps.length + 3 ≤ (pushes h).length) (hN : R.Counts (pushes h).length) :
    ∃ vs, (epsqSet ps).answer h () = .val vs ∧ vs.length = ps.length ∧ vs.Pairwise (· ≤ ·) ∧
      ∀ v ∈ vs, (∃ a ∈ pushes h, a ≤ v) ∧ (∃ b ∈ pushes h, v ≤ b) := by
  have hq : ∀ s : PsqSt (Fl R), s.heights.length = 2 * ps.length + 3 →
      (epsqSet ps).query s () = .val (s, (List.range' 1 ps.length).map fun i => (s.heights[2 * i]?).getD 0) := by
    intro s hs
    simp only [epsqSet, epsqResult]
    rw [mapRes_val (g := fun i => (s.heights[2 * i]?).getD 0)]
    · rfl
    · intro i hi
      rw [List.mem_range'_1] at hi
      have : 2 * i < s.heights.length := by omega
      rw [getAt_lt this, List.getElem?_eq_getElem this]
      rfl
  obtain ⟨s, e, I⟩ := RMachine.exec_inv_upto (epsqSet ps) (pushes h).length
    (fun s xs => s.FlInv (2 * ps.length + 3) xs)
    (fun s xs x hx I => psqPush_fl hu hu5 (by omega) hN (epsqIncr_length ps) x hx I)
    (fun s xs q I => ⟨s, _, hq s I.len.1, I⟩)
    (epsqSet ps).init []
    (psqInit_fl (by omega) hN hn (epsqIncr_length ps) (by simp [epsqDes, epsqIncr_length])) h (by simp)
  rw [List.nil_append] at I
  obtain ⟨q, z, hh, hp, ho, z0, zl, hmin, hmax⟩ := I.after hn
  refine ⟨(List.range' 1 ps.length).map fun i => q (2 * i), ?_, by simp, ?_, ?_⟩
  · unfold RMachine.answer
    rw [e, Res.val_bind, hq s I.len.1, Res.val_bind, Res.pure_eq]
    congr 1
    apply List.map_congr_left
    intro i hi
    rw [List.mem_range'_1] at hi
    rw [hh, List.getElem?_eq_getElem (by simp; omega), tab_getElem]
    rfl
  · rw [List.pairwise_iff_getElem]
    intro i j hi hj hij
    simp only [List.length_map, List.length_range'] at hi hj
    simp only [List.getElem_map, List.getElem_range', one_mul]
    exact ho.q_mono (by omega) (by omega)
  · intro v hv
    obtain ⟨i, hi, rfl⟩ := List.mem_map.mp hv
    rw [List.mem_range'_1] at hi
    exact ⟨⟨_, hmin.1, ho.q_mono (by omega) (by omega)⟩, ⟨_, hmax.1, ho.q_mono (by omega) (by omega)⟩⟩

/-- **C63** `p_square_cumulative_distribution`: heights non-decreasing from the least to the greatest sample, cumulative
values non-decreasing from `1/n` rounded to exactly 1. -/
theorem C63_cumul (hu : R.RelErr u) (hu5 : u ≤ 2 / 5) {b : ℕ} (hb : 0 < b) (h : List (Op (Fl R) Unit))
    (hn : b + 1 ≤ (pushes h).length) (hN : R.Counts (pushes h).length) :
    ∃ pts : List (Fl R × Fl R),
      (psqCumulSet b).answer h () = .val (pts.map fun p => (p.1, .val p.2)) ∧
      pts.length = b + 1 ∧
      (pts.map Prod.fst).Pairwise (· ≤ ·) ∧ (pts.map Prod.snd).Pairwise (· ≤ ·) ∧
      (∃ a c, pts.head? = some (a, c) ∧ IsLeast {x | x ∈ pushes h} a ∧ c.val = R.rd (1 / (pushes h).length)) ∧
      (∃ z, pts.getLast? = some (z, 1) ∧ IsGreatest {x | x ∈ pushes h} z) := by
  have hq : ∀ s : PsqCumulSt (Fl R), s.m.heights.length = b + 1 → s.m.pos.length = b + 1 →
      psqHist s.m.heights s.m.pos (s.m.cnt : Fl R) = .val ((List.range (b + 1)).map fun i =>
        ((s.m.heights[i]?).getD 0, fdiv ((s.m.pos[i]?).getD 0) (s.m.cnt : Fl R))) := by
    intro s h1 h2
    unfold psqHist
    rw [h1, mapRes_val]
    intro i hi
    have hi := List.mem_range.1 hi
    have i1 : i < s.m.heights.length := by omega
    have i2 : i < s.m.pos.length := by omega
    simp [getAt_lt i1, getAt_lt i2, i1, i2]
  obtain ⟨s, e, I, Ih⟩ := RMachine.exec_inv_upto (psqCumulSet b) (pushes h).length
    (fun s xs => s.m.FlInv (b + 1) xs ∧ (s.dirty = false → psqHist s.m.heights s.m.pos (s.m.cnt : Fl R) = .val s.hist))
    (fun s xs x hx I => by
      obtain ⟨m', e, I'⟩ := psqPush_fl hu hu5 (show 2 ≤ b + 1 by omega) hN
        (incr := psqCumulIncr b) (by simp [psqCumulIncr]) x hx I.1
      refine ⟨{ s with m := m', dirty := true }, ?_, I', by simp⟩
      simp only [psqCumulSet, e, Res.val_bind, Res.pure_eq])
    (fun s xs q I => by
      have hr := hq s I.1.len.1 I.1.len.2
      by_cases hd : s.dirty
      · obtain ⟨r, hr⟩ : ∃ r, psqHist s.m.heights s.m.pos (s.m.cnt : Fl R) = .val r := ⟨_, hr⟩
        refine ⟨{ s with hist := r, dirty := false }, r, ?_, I.1, fun _ => hr⟩
        simp only [psqCumulSet, hd, if_true, hr, Res.val_bind, Res.pure_eq]
      · have hd' : s.dirty = false := by simpa using hd
        refine ⟨s, s.hist, ?_, I⟩
        simp only [psqCumulSet, hd', Res.pure_eq]
        rfl)
    (psqCumulSet b).init []
    ⟨psqInit_fl (show 2 ≤ b + 1 by omega) hN hn (by simp [psqCumulIncr]) (by simp [psqCumulDes]), by simp [psqCumulSet]⟩
    h (by simp)
  rw [List.nil_append] at I
  obtain ⟨q, z, hh, hp, ho, z0, zl, hmin, hmax⟩ := I.after hn
  have zle : ∀ i < b + 1, z i ≤ (pushes h).length := by
    intro i hi
    rcases Nat.lt_or_ge i b with c | c
    · exact (ho.z_mono c (by omega)).le.trans zl.le
    · rw [show i = b + 1 - 1 by omega]; exact zl.le
  have hpos : (0 : K) < ((pushes h).length : K) := Nat.cast_pos.2 (by omega)
  have nval : (((pushes h).length : ℕ) : Fl R).val = (pushes h).length := Fl.cast_val hN le_rfl
  have hne : (((pushes h).length : ℕ) : Fl R) ≠ 0 := by
    intro e0
    rw [Fl.eq_zero_iff, nval] at e0
    linarith
  refine ⟨tab (b + 1) fun i => (q i, ((z i : ℕ) : Fl R) / (((pushes h).length : ℕ) : Fl R)), ?_, by simp, ?_, ?_,
    ⟨q 0, ((z 0 : ℕ) : Fl R) / (((pushes h).length : ℕ) : Fl R), ?_, hmin, ?_⟩, ⟨q b, ?_, hmax⟩⟩
  · have hr := hq s I.len.1 I.len.2
    have ans : (psqCumulSet b).answer h () = psqHist s.m.heights s.m.pos (s.m.cnt : Fl R) := by
      unfold RMachine.answer
      rw [e, Res.val_bind]
      by_cases hd : s.dirty
      · simp only [psqCumulSet, hd, if_true, hr, Res.val_bind, Res.pure_eq]
      · have hd' : s.dirty = false := by simpa using hd
        simp only [psqCumulSet, hd', Res.pure_eq]
        rw [Ih hd']
        rfl
    rw [ans, hr, I.cnt, hh, hp]
    congr 1
    unfold tab
    rw [List.map_map]
    apply List.map_congr_left
    intro i hi
    have hi := List.mem_range.1 hi
    simp [hi, fdiv, hne]
  · rw [tab, List.map_map, List.pairwise_iff_getElem]
    intro i j hi hj hij
    simp only [List.getElem_map, List.getElem_range, Function.comp]
    exact ho.q_mono hij.le (by simpa using hj)
  · rw [tab, List.map_map, List.pairwise_iff_getElem]
    intro i j hi hj hij
    simp only [List.getElem_map, List.getElem_range, Function.comp]
    have hj' : j < b + 1 := by simpa using hj
    rw [Fl.le_iff, Fl.val_div, Fl.val_div, nval, Fl.cast_val hN (zle i (by omega)), Fl.cast_val hN (zle j hj')]
    exact R.mono (div_le_div_of_nonneg_right (by exact_mod_cast (ho.z_mono hij hj').le) hpos.le)
  · rw [tab, List.range_succ_eq_map, List.map_cons, List.head?_cons]
  · rw [Fl.val_div, nval, z0, Fl.cast_val hN (by omega), Nat.cast_one]
  · rw [tab, List.range_succ, List.map_append, List.map_singleton, List.getLast?_concat]
    rw [Nat.add_sub_cancel] at zl
    congr 2
    apply Fl.ext
    rw [zl, Fl.val_div, nval, div_self hpos.ne', R.one, Fl.val_one]

/-- Eight `double`s: the estimate is between the least and the greatest of them. -/
example :
    let h : List (Op (Fl double) Unit) :=
      onlyPushes ([1 / 10, 7 / 10, 3 / 10, 9 / 10, 2 / 10, 8 / 10, 4 / 10, 6 / 10].map (Fl.ofK double))
    ∃ v, (psqQuantileSet (Fl.ofK double (1 / 2))).answer h () = .val v ∧
      (∃ a ∈ pushes h, a ≤ v) ∧ (∃ b ∈ pushes h, v ≤ b) :=
  C63_quantile_within double_relErr (by norm_num) _ _ (by simp [pushes, onlyPushes]) (double_counts (by
    simp [pushes, onlyPushes]))

/-- Three levels need nine samples. -/
example :
    let h : List (Op (Fl double) Unit) :=
      onlyPushes ([1 / 10, 7 / 10, 3 / 10, 9 / 10, 2 / 10, 8 / 10, 4 / 10, 6 / 10, 5 / 10].map (Fl.ofK double))
    ∃ vs, (epsqSet ([1 / 4, 1 / 2, 3 / 4].map (Fl.ofK double))).answer h () = .val vs ∧ vs.length = 3 ∧
      vs.Pairwise (· ≤ ·) ∧ ∀ v ∈ vs, (∃ a ∈ pushes h, a ≤ v) ∧ (∃ b ∈ pushes h, v ≤ b) :=
  C63_extended double_relErr (by norm_num) _ _ (by simp [pushes, onlyPushes]) (double_counts (by
    simp [pushes, onlyPushes]))

end Acc
