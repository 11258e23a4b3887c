import Verif.Proofs.Round
import Verif.Proofs.PSquare

/-!
# The P-square markers in floating point arithmetic

The estimates of the markers are not those of the algorithm any more, but their order is not lost.
-/

set_option linter.unusedSectionVars false

namespace Acc

/-! ## The order of the markers -/

/-- Heights non-decreasing, positions strictly increasing. -/
structure MarkOrd {F : Type} [LinearOrder F] (m : ℕ) (q : ℕ → F) (z : ℕ → ℕ) : Prop where
  q_mono : ∀ {i j}, i ≤ j → j < m → q i ≤ q j
  z_mono : ∀ {i j}, i < j → j < m → z i < z j

section
variable {F : Type} [LinearOrder F]

theorem mono_update {m i : ℕ} {q : ℕ → F} (hq : ∀ {i j}, i ≤ j → j < m → q i ≤ q j) (hi : 1 ≤ i) (him : i + 1 < m)
    {v : F} (h1 : q (i - 1) ≤ v) (h2 : v ≤ q (i + 1)) {a b : ℕ} (hab : a ≤ b) (hb : b < m) :
    Function.update q i v a ≤ Function.update q i v b := by
  by_cases ha : a = i
  · subst ha
    rw [Function.update_self]
    by_cases hb' : b = a
    · rw [hb', Function.update_self]
    · rw [Function.update_of_ne hb']
      exact h2.trans (hq (by omega) hb)
  · rw [Function.update_of_ne ha]
    by_cases hb' : b = i
    · subst hb'
      rw [Function.update_self]
      exact (hq (by omega) (by omega)).trans h1
    · rw [Function.update_of_ne hb']
      exact hq hab hb

theorem strict_update {m i : ℕ} {z : ℕ → ℕ} (hz : ∀ {i j}, i < j → j < m → z i < z j) (hi : 1 ≤ i) (him : i + 1 < m)
    {v : ℕ} (h1 : z (i - 1) < v) (h2 : v < z (i + 1)) {a b : ℕ} (hab : a < b) (hb : b < m) :
    Function.update z i v a < Function.update z i v b := by
  have hz' : ∀ {i j}, i ≤ j → j < m → z i ≤ z j := by
    intro i j h hj
    rcases h.eq_or_lt with rfl | h
    · exact le_rfl
    · exact (hz h hj).le
  by_cases ha : a = i
  · subst ha
    rw [Function.update_self, Function.update_of_ne (by omega)]
    exact lt_of_lt_of_le h2 (hz' (by omega) hb)
  · rw [Function.update_of_ne ha]
    by_cases hb' : b = i
    · subst hb'
      rw [Function.update_self]
      exact lt_of_le_of_lt (hz' (by omega) (by omega)) h1
    · rw [Function.update_of_ne hb']
      exact hz hab hb

theorem psqBump_map [Arith F] (k m : ℕ) (w : F) (n : ℕ → F) :
    psqBump k w (tab m n) = tab m (fun i => if k ≤ i then n i + w else n i) := by
  apply List.ext_getElem
  · simp [psqBump]
  · intro j h1 h2
    rw [tab_getElem]
    simp [psqBump, tab_getElem]

theorem psqCell_sorted {m : ℕ} (hm : 2 ≤ m) {q : ℕ → F} (hq : ∀ {i j}, i ≤ j → j < m → q i ≤ q j) (x : F) :
    ∃ q' k b, psqCell (tab m q) x = .val (tab m q', k, b) ∧ 1 ≤ k ∧ k ≤ m - 1 ∧
      (∀ {i j}, i ≤ j → j < m → q' i ≤ q' j) ∧ q' 0 = min (q 0) x ∧ q' (m - 1) = max (q (m - 1)) x := by
  unfold psqCell
  rw [getAt_tab _ (by omega), Res.val_bind, tab_length]
  by_cases h0 : x < q 0
  · rw [if_pos h0, setAt_tab _ (by omega)]
    refine ⟨_, 1, true, rfl, le_rfl, by omega, ?_, ?_, ?_⟩
    · intro i j hij hj
      by_cases hi : i = 0
      · subst hi
        rw [Function.update_self]
        by_cases hj0 : j = 0
        · subst hj0; rw [Function.update_self]
        · rw [Function.update_of_ne hj0]
          exact h0.le.trans (hq (by omega) hj)
      · rw [Function.update_of_ne hi, Function.update_of_ne (by omega)]
        exact hq hij hj
    · rw [Function.update_self, min_eq_right h0.le]
    · rw [Function.update_of_ne (by omega), max_eq_left (h0.le.trans (hq (by omega) (by omega)))]
  · rw [if_neg h0, getAt_tab _ (by omega), Res.val_bind]
    by_cases hl : q (m - 1) ≤ x
    · rw [if_pos hl, setAt_tab _ (by omega)]
      refine ⟨_, m - 1, false, rfl, by omega, le_rfl, ?_, ?_, ?_⟩
      · intro i j hij hj
        by_cases hj1 : j = m - 1
        · subst hj1
          rw [Function.update_self]
          by_cases hi : i = m - 1
          · subst hi; rw [Function.update_self]
          · rw [Function.update_of_ne hi]
            exact (hq (j := m - 1) (by omega) (by omega)).trans hl
        · rw [Function.update_of_ne hj1, Function.update_of_ne (by omega)]
          exact hq hij hj
      · rw [Function.update_of_ne (by omega), min_eq_left (not_lt.1 h0)]
      · rw [Function.update_self, max_eq_right hl]
    · rw [if_neg hl]
      have hs : (tab m q).Pairwise (· ≤ ·) := by
        rw [List.pairwise_iff_getElem]
        intro i j hi hj hij
        rw [tab_getElem, tab_getElem]
        exact hq hij.le (by simpa using hj)
      rw [upperBound_sorted hs]
      set k := (tab m q).findIdx (fun e => decide (x < e)) with hk
      have hkl : k < m := by
        have : k < (tab m q).length := by
          rw [hk, List.findIdx_lt_length]
          refine ⟨q (m - 1), ?_, by simpa using hl⟩
          unfold tab
          exact List.mem_map.2 ⟨m - 1, List.mem_range.2 (by omega), rfl⟩
        simpa using this
      have h2 : x < q k := by
        have := List.findIdx_getElem (p := fun e => decide (x < e)) (xs := tab m q)
          (w := by simpa using hkl)
        rw [tab_getElem] at this
        simpa using this
      have hk0 : k ≠ 0 := by
        intro e
        rw [e] at h2
        exact h0 h2
      exact ⟨q, k, false, rfl, by omega, by omega, hq, (min_eq_left (not_lt.1 h0)).symm,
        (max_eq_left (not_le.1 hl).le).symm⟩

end

/-! ## Whole numbers -/

variable {K : Type} [Field K] [LinearOrder K] [IsStrictOrderedRing K] {R : Rounding K} {u : K}

namespace Fl
variable {N : ℕ}

theorem cast_val (hN : R.Counts N) {k : ℕ} (h : k ≤ N) : ((k : ℕ) : Fl R).val = k := by
  rw [val_natCast, hN k h]

theorem cast_add_one (hN : R.Counts N) {k : ℕ} (h : k + 1 ≤ N) : ((k : ℕ) : Fl R) + 1 = ((k + 1 : ℕ) : Fl R) := by
  apply Fl.ext
  rw [val_add, cast_val hN (by omega), val_one, ← Nat.cast_succ, val_natCast]

theorem cast_sub (hN : R.Counts N) {j k : ℕ} (h : j ≤ k) (hk : k ≤ N) :
    ((k : ℕ) : Fl R) - ((j : ℕ) : Fl R) = ((k - j : ℕ) : Fl R) := by
  apply Fl.ext
  rw [val_sub, cast_val hN hk, cast_val hN (h.trans hk), ← Nat.cast_sub h, val_natCast]

theorem cast_sub' (hN : R.Counts N) {j k : ℕ} (h : j ≤ k) (hk : k ≤ N) :
    ((j : ℕ) : Fl R) - ((k : ℕ) : Fl R) = -((k - j : ℕ) : Fl R) := by
  apply Fl.ext
  rw [val_sub, cast_val hN (h.trans hk), cast_val hN hk, val_neg, cast_val hN ((Nat.sub_le k j).trans hk),
    Nat.cast_sub h, ← neg_sub (k : K),
    R.neg]
  rw [← Nat.cast_sub h, hN _ (by omega)]

theorem cast_add_neg_one (hN : R.Counts N) {k : ℕ} (h : 1 ≤ k) (hk : k ≤ N) :
    ((k : ℕ) : Fl R) + (-1) = ((k - 1 : ℕ) : Fl R) := by
  apply Fl.ext
  rw [val_add, cast_val hN hk, val_neg, val_one, val_natCast, Nat.cast_sub h, Nat.cast_one, sub_eq_add_neg]

end Fl

/-- A rounded difference divided by at least 2 in absolute value is not greater than the difference. -/
theorem quot_le (hu : R.RelErr u) (hu5 : u ≤ 2 / 5) {z c : K} (hc : 2 ≤ |c|) :
    |R.rd (R.rd z / c)| ≤ |z| := by
  have h0 := hu.nonneg
  have b : ∀ y, |R.rd y| ≤ (1 + u) * |y| := by
    intro y
    calc |R.rd y| = |(R.rd y - y) + y| := by ring_nf
      _ ≤ |R.rd y - y| + |y| := abs_add_le _ _
      _ ≤ (1 + u) * |y| := by have := hu y; linarith
  have h1 := b (R.rd z / c)
  rw [abs_div] at h1
  have h2 : |R.rd z| / |c| ≤ (1 + u) * |z| / 2 := div_le_div₀ (by positivity) (b z) (by norm_num) hc
  have h3 : (1 + u) * ((1 + u) * |z| / 2) ≤ |z| := by
    have : (1 + u) * (1 + u) ≤ 2 := by nlinarith
    have := mul_le_mul_of_nonneg_right this (abs_nonneg z)
    linarith
  have h4 : (1 + u) * (|R.rd z| / |c|) ≤ (1 + u) * ((1 + u) * |z| / 2) :=
    mul_le_mul_of_nonneg_left h2 (by linarith)
  linarith

/-- The linear step upwards. -/
theorem up_step (hu : R.RelErr u) (hu5 : u ≤ 2 / 5) {a b c : Fl R} (h : a ≤ b) (hc : 2 ≤ c.val) :
    a ≤ a + (b - a) / c ∧ a + (b - a) / c ≤ b := by
  have h' := Fl.le_iff.1 h
  have hq := quot_le hu hu5 (z := b.val - a.val) (c := c.val) (by rwa [abs_of_nonneg (by linarith)])
  have h1 : 0 ≤ R.rd (R.rd (b.val - a.val) / c.val) :=
    R.nonneg (div_nonneg (R.nonneg (by linarith)) (by linarith))
  rw [abs_of_nonneg h1, abs_of_nonneg (by linarith)] at hq
  simp only [Fl.le_iff, Fl.val_add, Fl.val_div, Fl.val_sub]
  constructor
  · conv_lhs => rw [← Fl.rd_val a]
    exact R.mono (by linarith)
  · conv_rhs => rw [← Fl.rd_val b]
    exact R.mono (by linarith)

/-- The linear step downwards. -/
theorem down_step (hu : R.RelErr u) (hu5 : u ≤ 2 / 5) {a b c : Fl R} (h : a ≤ b) (hc : c.val ≤ -2) :
    a ≤ b - (a - b) / c ∧ b - (a - b) / c ≤ b := by
  have h' := Fl.le_iff.1 h
  have hq := quot_le hu hu5 (z := a.val - b.val) (c := c.val) (by rw [abs_of_nonpos (by linarith)]; linarith)
  have h1 : 0 ≤ R.rd (R.rd (a.val - b.val) / c.val) :=
    R.nonneg (div_nonneg_of_nonpos (R.nonpos (by linarith)) (by linarith))
  rw [abs_of_nonneg h1, abs_of_nonpos (by linarith)] at hq
  simp only [Fl.le_iff, Fl.val_div, Fl.val_sub]
  constructor
  · conv_lhs => rw [← Fl.rd_val a]
    exact R.mono (by linarith)
  · conv_rhs => rw [← Fl.rd_val b]
    exact R.mono (by linarith)

/-! ## One adjustment -/

/-- What an adjustment of inner markers leaves alone. -/
structure MarkKeep {F : Type} (m : ℕ) (q q' : ℕ → F) (z z' : ℕ → ℕ) : Prop where
  q0 : q' 0 = q 0
  ql : q' (m - 1) = q (m - 1)
  z0 : z' 0 = z 0
  zl : z' (m - 1) = z (m - 1)

theorem psqAdjust1_ord (hu : R.RelErr u) (hu5 : u ≤ 2 / 5) {m i N : ℕ} (hN : R.Counts N) {q : ℕ → Fl R} {z : ℕ → ℕ}
    (h : MarkOrd m q z) (hzN : z (m - 1) ≤ N) (hi : 1 ≤ i) (him : i + 1 < m) (t : ℕ → Fl R) :
    ∃ q' z', psqAdjust1 (tab m t) (tab m q, tab m fun i => ((z i : ℕ) : Fl R)) i
        = .val (tab m q', tab m fun i => ((z' i : ℕ) : Fl R)) ∧ MarkOrd m q' z' ∧ MarkKeep m q q' z z' := by
  have z1 : z (i - 1) < z i := h.z_mono (by omega) (by omega)
  have z2 : z i < z (i + 1) := h.z_mono (by omega) him
  have z3 : z (i + 1) ≤ N := by
    rcases Nat.lt_or_ge (i + 1) (m - 1) with c | c
    · exact (h.z_mono c (by omega)).le.trans hzN
    · rw [show i + 1 = m - 1 by omega]; exact hzN
  have edp := Fl.cast_sub (R := R) hN z2.le z3
  have edm := Fl.cast_sub' (R := R) hN z1.le (by omega)
  have vp : ((z (i + 1) - z i : ℕ) : Fl R).val = ((z (i + 1) - z i : ℕ) : K) := Fl.cast_val hN (by omega)
  have vm : ((z i - z (i - 1) : ℕ) : Fl R).val = ((z i - z (i - 1) : ℕ) : K) := Fl.cast_val hN (by omega)
  have np : ((z (i + 1) - z i : ℕ) : Fl R) ≠ 0 := by
    intro e
    rw [Fl.eq_zero_iff, vp, Nat.cast_eq_zero] at e
    omega
  have nm : -((z i - z (i - 1) : ℕ) : Fl R) ≠ 0 := by
    intro e
    rw [Fl.eq_zero_iff, Fl.val_neg, vm, neg_eq_zero, Nat.cast_eq_zero] at e
    omega
  unfold psqAdjust1
  simp only [getAt_tab q (show i < m by omega), getAt_tab q him,
    getAt_tab q (show i - 1 < m by omega), getAt_tab (fun i => ((z i : ℕ) : Fl R)) (show i < m by omega),
    getAt_tab (fun i => ((z i : ℕ) : Fl R)) him, getAt_tab (fun i => ((z i : ℕ) : Fl R)) (show i - 1 < m by omega),
    getAt_tab t (show i < m by omega), Res.val_bind, edp, edm]
  have fp : fdiv (q (i + 1) - q i) ((z (i + 1) - z i : ℕ) : Fl R)
      = .val ((q (i + 1) - q i) / ((z (i + 1) - z i : ℕ) : Fl R)) := by rw [fdiv, if_neg np]
  have fm : fdiv (q (i - 1) - q i) (-((z i - z (i - 1) : ℕ) : Fl R))
      = .val ((q (i - 1) - q i) / (-((z i - z (i - 1) : ℕ) : Fl R))) := by rw [fdiv, if_neg nm]
  have q1 : q (i - 1) ≤ q i := h.q_mono (by omega) (by omega)
  have q2 : q i ≤ q (i + 1) := h.q_mono (by omega) him
  have fin : ∀ (v sg : Fl R) (k : ℕ), q (i - 1) ≤ v → v ≤ q (i + 1) → ((z i : ℕ) : Fl R) + sg = ((k : ℕ) : Fl R) →
      z (i - 1) < k → k < z (i + 1) →
      ∃ q' z', (do
          let hs ← setAt (tab m q) i v
          let ns ← setAt (tab m fun i => ((z i : ℕ) : Fl R)) i (((z i : ℕ) : Fl R) + sg)
          pure (hs, ns) : Res (List (Fl R) × List (Fl R))) = .val (tab m q', tab m fun i => ((z' i : ℕ) : Fl R)) ∧
        MarkOrd m q' z' ∧ MarkKeep m q q' z z' := by
    intro v sg k v1 v2 ek k1 k2
    refine ⟨Function.update q i v, Function.update z i k, ?_, ⟨?_, ?_⟩, ⟨?_, ?_, ?_, ?_⟩⟩
    · rw [ek]
      rw [setAt_tab q (show i < m by omega), Res.val_bind,
        setAt_tab (fun i => ((z i : ℕ) : Fl R)) (show i < m by omega), Res.val_bind, Res.pure_eq]
      congr 2
      apply tab_congr
      intro j _
      by_cases hj : j = i
      · subst hj; simp
      · simp [Function.update_of_ne hj]
    · exact fun hab hb => mono_update h.q_mono hi him v1 v2 hab hb
    · exact fun hab hb => strict_update h.z_mono hi him k1 k2 hab hb
    · exact Function.update_of_ne (by omega) _ _
    · exact Function.update_of_ne (by omega) _ _
    · exact Function.update_of_ne (by omega) _ _
    · exact Function.update_of_ne (by omega) _ _
  by_cases hd : 0 < t i - ((z i : ℕ) : Fl R)
  · by_cases c : 1 < ((z (i + 1) - z i : ℕ) : Fl R) ∧ 1 ≤ t i - ((z i : ℕ) : Fl R)
    · have c2 : 1 < z (i + 1) - z i := by
        have := Fl.lt_iff.1 c.1
        rw [vp, Fl.val_one] at this
        exact_mod_cast this
      obtain ⟨s1, s2⟩ := up_step hu hu5 q2 (c := ((z (i + 1) - z i : ℕ) : Fl R)) (by
        rw [vp]; exact_mod_cast c2)
      have ek := Fl.cast_add_one (R := R) hN (k := z i) (by omega)
      have hlin := fin _ 1 (z i + 1) (q1.trans s1) s2 ek (by omega) (by omega)
      rw [if_pos (Or.inl ⟨c.2, c.1⟩)]
      simp only [if_pos hd, fp, Res.val_bind, Res.pure_eq]
      split
      · split_ifs with hv
        · exact fin _ 1 (z i + 1) hv.1.le hv.2.le ek (by omega) (by omega)
        · exact hlin
      · exact hlin
    · rw [if_neg]
      · exact ⟨q, z, rfl, h, ⟨rfl, rfl, rfl, rfl⟩⟩
      · rintro (⟨h1, h2⟩ | ⟨h1, _⟩)
        · exact c ⟨h2, h1⟩
        · have h1 := Fl.le_iff.1 h1
          have h2 := Fl.lt_iff.1 hd
          rw [Fl.val_neg, Fl.val_one] at h1
          rw [Fl.val_zero] at h2
          linarith
  · by_cases c : -((z i - z (i - 1) : ℕ) : Fl R) < -1 ∧ t i - ((z i : ℕ) : Fl R) ≤ -1
    · have c2 : 1 < z i - z (i - 1) := by
        have := Fl.lt_iff.1 c.1
        rw [Fl.val_neg, Fl.val_neg, vm, Fl.val_one, neg_lt_neg_iff] at this
        exact_mod_cast this
      obtain ⟨s1, s2⟩ := down_step hu hu5 q1 (c := -((z i - z (i - 1) : ℕ) : Fl R)) (by
        rw [Fl.val_neg, vm, neg_le_neg_iff]; exact_mod_cast c2)
      have ek := Fl.cast_add_neg_one (R := R) hN (k := z i) (by omega) (by omega)
      have hlin := fin _ (-1) (z i - 1) s1 (s2.trans q2) ek (by omega) (by omega)
      rw [if_pos (Or.inr ⟨c.2, c.1⟩)]
      simp only [if_neg hd, fm, Res.val_bind, Res.pure_eq]
      split
      · split_ifs with hv
        · exact fin _ (-1) (z i - 1) hv.1.le hv.2.le ek (by omega) (by omega)
        · exact hlin
      · exact hlin
    · rw [if_neg]
      · exact ⟨q, z, rfl, h, ⟨rfl, rfl, rfl, rfl⟩⟩
      · rintro (⟨h1, _⟩ | ⟨h1, h2⟩)
        · apply hd
          have h1 := Fl.le_iff.1 h1
          rw [Fl.val_one] at h1
          rw [Fl.lt_iff, Fl.val_zero]
          linarith
        · exact c ⟨h2, h1⟩

theorem psqAdjust_ord (hu : R.RelErr u) (hu5 : u ≤ 2 / 5) {m N : ℕ} (hN : R.Counts N) {q : ℕ → Fl R} {z : ℕ → ℕ}
    (h : MarkOrd m q z) (hzN : z (m - 1) ≤ N) (t : ℕ → Fl R) :
    ∃ q' z', psqAdjust (tab m t) (tab m q, tab m fun i => ((z i : ℕ) : Fl R))
        = .val (tab m q', tab m fun i => ((z' i : ℕ) : Fl R)) ∧ MarkOrd m q' z' ∧ MarkKeep m q q' z z' := by
  unfold psqAdjust
  rw [tab_length]
  have hl : ∀ i ∈ List.range' 1 (m - 2), 1 ≤ i ∧ i + 1 < m := by
    intro i hi
    rw [List.mem_range'_1] at hi
    omega
  revert hl
  generalize List.range' 1 (m - 2) = l
  intro hl
  induction l generalizing q z with
  | nil => exact ⟨q, z, rfl, h, ⟨rfl, rfl, rfl, rfl⟩⟩
  | cons i l ih =>
    obtain ⟨q1, z1, e1, o1, k1⟩ := psqAdjust1_ord hu hu5 hN h hzN (hl i (by simp)).1 (hl i (by simp)).2 t
    obtain ⟨q2, z2, e2, o2, k2⟩ := ih o1 (by rw [k1.zl]; exact hzN) (fun j hj => hl j (by simp [hj]))
    refine ⟨q2, z2, ?_, o2, ?_⟩
    · rw [foldRes, e1, Res.val_bind, e2]
    · exact ⟨k2.q0.trans k1.q0, k2.ql.trans k1.ql, k2.z0.trans k1.z0, k2.zl.trans k1.zl⟩

/-! ## A push -/

/-- State of the accumulator after the samples `xs`, as far as the order goes. -/
structure PsqSt.FlInv (m : ℕ) (s : PsqSt (Fl R)) (xs : List (Fl R)) : Prop where
  cnt : s.cnt = xs.length
  des : s.des.length = m
  before : xs.length < m → s.heights = xs ++ List.replicate (m - xs.length) 0 ∧
    s.pos = tab m (fun i => ((i + 1 : ℕ) : Fl R))
  after : m ≤ xs.length → ∃ q z, s.heights = tab m q ∧ s.pos = tab m (fun i => ((z i : ℕ) : Fl R)) ∧
    MarkOrd m q z ∧ z 0 = 1 ∧ z (m - 1) = xs.length ∧
    IsLeast {x | x ∈ xs} (q 0) ∧ IsGreatest {x | x ∈ xs} (q (m - 1))

theorem psqInit_fl {m N : ℕ} (hm : 2 ≤ m) (hN : R.Counts N) (hmN : m ≤ N) {incr des : List (Fl R)}
    (hi : incr.length = m) (hd : des.length = m) : (psqInit incr des).FlInv m [] := by
  refine ⟨rfl, hd, fun _ => ⟨?_, ?_⟩, fun h => by simp at h; omega⟩
  · simp [psqInit, hi]
  · unfold psqInit tab
    rw [hi]
    apply List.map_congr_left
    intro i hi
    rw [List.mem_range] at hi
    exact Fl.cast_add_one hN (by omega)

theorem psqPush_fl (hu : R.RelErr u) (hu5 : u ≤ 2 / 5) {m N : ℕ} (hm : 2 ≤ m) (hN : R.Counts N)
    {incr : List (Fl R)} (hil : incr.length = m) {s : PsqSt (Fl R)} {xs : List (Fl R)} (x : Fl R)
    (hx : xs.length + 1 ≤ N) (h : s.FlInv m xs) :
    ∃ s', psqPush incr s x = .val s' ∧ s'.FlInv m (xs ++ [x]) := by
  unfold psqPush psqStep
  simp only [hil, h.cnt]
  by_cases hc : xs.length + 1 ≤ m
  · rw [if_pos hc]
    obtain ⟨hh, hp⟩ := h.before (by omega)
    have hlen : xs.length < s.heights.length := by rw [hh]; simp; omega
    rw [Nat.add_sub_cancel, setAt_lt hlen, Res.val_bind, Res.pure_eq]
    refine ⟨_, rfl, ?_⟩
    have hset : s.heights.set xs.length x = xs ++ [x] ++ List.replicate (m - (xs.length + 1)) 0 := by
      rw [hh, List.set_append_right _ _ le_rfl, Nat.sub_self,
        show m - xs.length = (m - (xs.length + 1)) + 1 by omega, List.replicate_succ,
        List.set_cons_zero]
      simp
    rcases Nat.lt_or_eq_of_le hc with hlt | heq
    · refine ⟨by simp, h.des, ?_, ?_⟩
      · intro _
        simp only [if_neg (show xs.length + 1 ≠ m by omega), hset, hp, List.length_append,
          List.length_singleton, and_self]
      · intro h'
        simp at h'
        omega
    · refine ⟨by simp, h.des, ?_, ?_⟩
      · intro h'
        simp at h'
        omega
      · intro _
        have e : m - (xs.length + 1) = 0 := by omega
        simp only [if_pos heq, hset, hp, e, List.replicate_zero, List.append_nil]
        set l := (xs ++ [x]).insertionSort (· ≤ ·) with hl
        have hll : l.length = m := by rw [hl, List.length_insertionSort]; simp; omega
        have hsort : l.Pairwise (· ≤ ·) := List.pairwise_insertionSort (· ≤ ·) _
        have hmem : ∀ y, y ∈ l ↔ y ∈ xs ++ [x] := fun y => List.mem_insertionSort (· ≤ ·)
        have hget : ∀ i (hi : i < m), (l[i]?).getD 0 = l[i]'(by omega) := by
          intro i hi
          rw [List.getElem?_eq_getElem (by omega)]; rfl
        have hmono : ∀ {i j}, i ≤ j → j < m → (l[i]?).getD 0 ≤ (l[j]?).getD 0 := by
          intro i j hij hj
          rw [hget i (by omega), hget j hj]
          rcases hij.eq_or_lt with rfl | hij
          · exact le_rfl
          · exact List.pairwise_iff_getElem.1 hsort i j (by omega) (by omega) hij
        refine ⟨fun i => (l[i]?).getD 0, fun i => i + 1, ?_, rfl, ⟨hmono, ?_⟩, rfl, ?_, ?_, ?_⟩
        · conv_lhs => rw [eq_tab l 0, hll]
        · intro i j hij _
          omega
        · simp; omega
        · refine ⟨?_, ?_⟩
          · show (l[0]?).getD 0 ∈ _
            rw [hget 0 (by omega)]
            exact (hmem _).1 (List.getElem_mem _)
          · intro y hy
            obtain ⟨i, hi, rfl⟩ := List.mem_iff_getElem.1 ((hmem y).2 hy)
            rw [← hget i (by omega)]
            exact hmono (by omega) (by omega)
        · refine ⟨?_, ?_⟩
          · show (l[m - 1]?).getD 0 ∈ _
            rw [hget (m - 1) (by omega)]
            exact (hmem _).1 (List.getElem_mem _)
          · intro y hy
            obtain ⟨i, hi, rfl⟩ := List.mem_iff_getElem.1 ((hmem y).2 hy)
            rw [← hget i (by omega)]
            exact hmono (by omega) (by omega)
  · rw [if_neg hc]
    have hle : m ≤ xs.length := by omega
    obtain ⟨q, z, hh, hp, ho, z0, zl, hmin, hmax⟩ := h.after hle
    obtain ⟨q1, k, b, e1, k1, k2, hq1, q10, q1l⟩ := psqCell_sorted hm ho.q_mono x
    have zle : ∀ i < m, z i ≤ xs.length := by
      intro i hi
      rcases Nat.lt_or_ge i (m - 1) with c | c
      · exact (ho.z_mono c (by omega)).le.trans zl.le
      · rw [show i = m - 1 by omega]; exact zl.le
    have ebump : psqBump k 1 (tab m fun i => ((z i : ℕ) : Fl R))
        = tab m (fun i => (((if k ≤ i then z i + 1 else z i) : ℕ) : Fl R)) := by
      rw [psqBump_map]
      apply tab_congr
      intro i hi
      have := zle i hi
      split_ifs
      · exact Fl.cast_add_one hN (by omega)
      · rfl
    have ho1 : MarkOrd m q1 (fun i => if k ≤ i then z i + 1 else z i) := by
      refine ⟨hq1, ?_⟩
      intro i j hij hj
      have := ho.z_mono hij hj
      split_ifs <;> omega
    have hdl : (List.zipWith (· + ·) s.des incr).length = m := by
      rw [List.length_zipWith, h.des, hil, Nat.min_self]
    have edes := eq_tab (List.zipWith (· + ·) s.des incr) 0
    rw [hdl] at edes
    obtain ⟨q2, z2, e2, o2, kp⟩ := psqAdjust_ord hu hu5 hN ho1 (by
      rw [zl]; split_ifs; all_goals omega) (fun i => ((List.zipWith (· + ·) s.des incr)[i]?).getD 0)
    rw [hh, e1, Res.val_bind, hp]
    simp only [ebump]
    rw [edes, e2, Res.val_bind, Res.pure_eq]
    refine ⟨_, rfl, by simp, by simp, ?_, ?_⟩
    · intro h'
      simp at h'
      omega
    · intro _
      refine ⟨q2, z2, rfl, rfl, o2, ?_, ?_, ?_, ?_⟩
      · rw [kp.z0, if_neg (by omega), z0]
      · rw [kp.zl, if_pos k2, zl]; simp
      · rw [kp.q0, q10]
        refine ⟨?_, ?_⟩
        · rcases min_choice (q 0) x with c | c
          · rw [c]; exact List.mem_append_left _ hmin.1
          · rw [c]; simp
        · intro y hy
          rcases List.mem_append.1 hy with hy | hy
          · exact (min_le_left _ _).trans (hmin.2 hy)
          · simp at hy
            subst hy
            exact min_le_right _ _
      · rw [kp.ql, q1l]
        refine ⟨?_, ?_⟩
        · rcases max_choice (q (m - 1)) x with c | c
          · rw [c]; exact List.mem_append_left _ hmax.1
          · rw [c]; simp
        · intro y hy
          rcases List.mem_append.1 hy with hy | hy
          · exact (hmax.2 hy).trans (le_max_left _ _)
          · simp at hy
            subst hy
            exact le_max_right _ _

/-! ## Histories -/

/-- `exec_inv` for invariants that are kept only up to `N` samples. -/
theorem RMachine.exec_inv_upto {X Q S A : Type} (M : RMachine X Q S A) (N : ℕ) (I : S → List X → Prop)
    (hpush : ∀ s xs x, xs.length + 1 ≤ N → I s xs → ∃ s', M.push s x = .val s' ∧ I s' (xs ++ [x]))
    (hquery : ∀ s xs q, I s xs → ∃ s' r, M.query s q = .val (s', r) ∧ I s' xs)
    (s : S) (xs : List X) (h0 : I s xs) (h : List (Op X Q)) (hN : xs.length + (pushes h).length ≤ N) :
    ∃ s', M.exec s h = .val s' ∧ I s' (xs ++ pushes h) := by
  induction h generalizing s xs with
  | nil => exact ⟨s, rfl, by simpa [pushes] using h0⟩
  | cons o os ih =>
    cases o with
    | push x =>
      simp only [pushes, List.length_cons] at hN
      obtain ⟨s', e, I'⟩ := hpush s xs x (by omega) h0
      obtain ⟨s'', e', I''⟩ := ih s' (xs ++ [x]) I' (by simp; omega)
      refine ⟨s'', ?_, by simpa [pushes] using I''⟩
      rw [RMachine.exec, RMachine.exec1, e, Res.val_bind, e']
    | query q =>
      simp only [pushes] at hN
      obtain ⟨s', r, e, I'⟩ := hquery s xs q h0
      obtain ⟨s'', e', I''⟩ := ih s' xs I' hN
      refine ⟨s'', ?_, by simpa [pushes] using I''⟩
      rw [RMachine.exec, RMachine.exec1, e, Res.val_bind, Res.pure_eq, Res.val_bind, e']

theorem PsqSt.FlInv.len {m : ℕ} {s : PsqSt (Fl R)} {xs : List (Fl R)} (I : s.FlInv m xs) :
    s.heights.length = m ∧ s.pos.length = m := by
  rcases Nat.lt_or_ge xs.length m with h | h
  · obtain ⟨h1, h2⟩ := I.before h
    rw [h1, h2]
    simp; omega
  · obtain ⟨q, z, h1, h2, _⟩ := I.after h
    rw [h1, h2]
    simp

end Acc
