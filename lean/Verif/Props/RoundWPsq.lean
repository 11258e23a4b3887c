import Verif.Proofs.RoundPsq
import Verif.Proofs.WPSquare
import Verif.Props.Round

/-!
# C85: the markers of the weighted P-square estimators in floating point arithmetic

The positions are sums of rounded weights here, neighbouring positions may coincide, and the adjustment divides by
differences that are only known to be greater than 1.  The heights keep their order nevertheless.  For the unweighted
estimators the same argument shows that the number of samples need not be representable.
-/

set_option linter.unusedSectionVars false

namespace Acc

variable {K : Type} [Field K] [LinearOrder K] [IsStrictOrderedRing K] {R : Rounding K}

/-- Dividing a positive number by a representable number greater than 1 makes it smaller, also after rounding.  Holds in
every binary format with at least two bits, as long as nothing underflows (`nearest_shrinks`). -/
def Rounding.Shrinks (R : Rounding K) : Prop := ∀ y c, 0 < y → R.rd y = y → R.rd c = c → 1 < c → R.rd (y / c) < y

/-! ## One adjustment -/

theorem up_shrink (hs : R.Shrinks) {a b c : Fl R} (h : a ≤ b) (hc : 1 < c) :
    a ≤ a + (b - a) / c ∧ a + (b - a) / c ≤ b := by
  have h' := Fl.le_iff.1 h
  have hc' : 1 < c.val := Fl.lt_iff.1 hc
  have y0 : 0 ≤ R.rd (b.val - a.val) := R.nonneg (by linarith)
  have r0 : 0 ≤ R.rd (R.rd (b.val - a.val) / c.val) := R.nonneg (div_nonneg y0 (by linarith))
  have r1 : R.rd (R.rd (b.val - a.val) / c.val) ≤ b.val - a.val := by
    rcases y0.eq_or_lt with e | l
    · rw [← e, zero_div, R.zero]; linarith
    · by_contra hlt
      have h1 := R.mono (not_le.1 hlt).le
      rw [R.idem] at h1
      exact absurd (hs _ _ l (R.idem _) c.rd_val hc') (not_lt.2 h1)
  simp only [Fl.le_iff, Fl.val_add, Fl.val_div, Fl.val_sub]
  constructor
  · conv_lhs => rw [← Fl.rd_val a]
    exact R.mono (by linarith)
  · conv_rhs => rw [← Fl.rd_val b]
    exact R.mono (by linarith)

theorem down_shrink (hs : R.Shrinks) {a b c : Fl R} (h : a ≤ b) (hc : c < -1) :
    a ≤ b - (a - b) / c ∧ b - (a - b) / c ≤ b := by
  have h' := Fl.le_iff.1 h
  have hc' : c.val < -1 := by simpa using Fl.lt_iff.1 hc
  have y0 : R.rd (a.val - b.val) ≤ 0 := R.nonpos (by linarith)
  have r0 : 0 ≤ R.rd (R.rd (a.val - b.val) / c.val) :=
    R.nonneg (div_nonneg_of_nonpos y0 (by linarith))
  have r1 : R.rd (R.rd (a.val - b.val) / c.val) ≤ b.val - a.val := by
    rcases y0.eq_or_lt with e | l
    · rw [e, zero_div, R.zero]; linarith
    · by_contra hlt
      have h1 : R.rd (-R.rd (R.rd (a.val - b.val) / c.val)) ≤ R.rd (a.val - b.val) :=
        R.mono (by linarith [not_le.1 hlt])
      rw [R.neg _ (R.idem _)] at h1
      have h2 := hs (-R.rd (a.val - b.val)) (-c.val) (by linarith) (R.neg _ (R.idem _)) (R.neg _ c.rd_val) (by linarith)
      rw [neg_div_neg_eq] at h2
      linarith
  simp only [Fl.le_iff, Fl.val_div, Fl.val_sub]
  constructor
  · conv_lhs => rw [← Fl.rd_val a]
    exact R.mono (by linarith)
  · conv_rhs => rw [← Fl.rd_val b]
    exact R.mono (by linarith)

/-- One iteration keeps the heights in order, whatever the positions are. -/
theorem psqAdjust1_heights (hs : R.Shrinks) {m i : ℕ} {q n : ℕ → Fl R} (h : ∀ {i j}, i ≤ j → j < m → q i ≤ q j)
    (hi : 1 ≤ i) (him : i + 1 < m) (t : ℕ → Fl R) :
    ∃ q' n', psqAdjust1 (tab m t) (tab m q, tab m n) i = .val (tab m q', tab m n') ∧
      (∀ {i j}, i ≤ j → j < m → q' i ≤ q' j) ∧ q' 0 = q 0 ∧ q' (m - 1) = q (m - 1) := by
  have q1 : q (i - 1) ≤ q i := h (by omega) (by omega)
  have q2 : q i ≤ q (i + 1) := h (by omega) him
  have one_pos' : (0 : Fl R) < 1 := by rw [Fl.lt_iff]; simp
  have neg_lt : (-1 : Fl R) < 0 := by rw [Fl.lt_iff]; simp
  unfold psqAdjust1
  simp only [getAt_tab q (show i < m by omega), getAt_tab q him, getAt_tab q (show i - 1 < m by omega),
    getAt_tab n (show i < m by omega), getAt_tab n him, getAt_tab n (show i - 1 < m by omega),
    getAt_tab t (show i < m by omega), Res.val_bind]
  by_cases c : 1 ≤ t i - n i ∧ 1 < n (i + 1) - n i ∨ t i - n i ≤ -1 ∧ n (i - 1) - n i < -1
  · rw [if_pos c]
    have hlin : ∃ v, (if 0 < t i - n i then (do
          let a ← fdiv (q (i + 1) - q i) (n (i + 1) - n i)
          pure (q i + a)) else (do
          let b ← fdiv (q (i - 1) - q i) (n (i - 1) - n i)
          pure (q i - b)) : Res (Fl R)) = .val v ∧ q (i - 1) ≤ v ∧ v ≤ q (i + 1) := by
      rcases c with ⟨c1, c2⟩ | ⟨c1, c2⟩
      · rw [if_pos (one_pos'.trans_le c1), fdiv, if_neg (one_pos'.trans c2).ne', Res.val_bind]
        obtain ⟨s1, s2⟩ := up_shrink hs q2 c2
        exact ⟨_, rfl, q1.trans s1, s2⟩
      · rw [if_neg (not_lt.2 (c1.trans neg_lt.le)), fdiv, if_neg (c2.trans neg_lt).ne, Res.val_bind]
        obtain ⟨s1, s2⟩ := down_shrink hs q1 c2
        exact ⟨_, rfl, s1, s2.trans q2⟩
    obtain ⟨v, hv, hv1, hv2⟩ := hlin
    have fin : ∀ u w, q (i - 1) ≤ u → u ≤ q (i + 1) → ∃ q' n', (do
        let hs ← setAt (tab m q) i u
        let ns ← setAt (tab m n) i w
        pure (hs, ns) : Res (List (Fl R) × List (Fl R))) = .val (tab m q', tab m n') ∧
          (∀ {i j}, i ≤ j → j < m → q' i ≤ q' j) ∧ q' 0 = q 0 ∧ q' (m - 1) = q (m - 1) := by
      intro u w hu1 hu2
      rw [setAt_tab q (show i < m by omega), Res.val_bind, setAt_tab n (show i < m by omega), Res.val_bind, Res.pure_eq]
      exact ⟨Function.update q i u, Function.update n i w, rfl, fun hab hb => mono_update h hi him hu1 hu2 hab hb,
        Function.update_of_ne (by omega) _ _, Function.update_of_ne (by omega) _ _⟩
    simp only [hv]
    generalize (fdiv (if 0 < t i - n i then (1 : Fl R) else -1) (n (i + 1) - n i - (n (i - 1) - n i)) >>= _ : Res (Fl R)) = r
    cases r with
    | val w =>
      simp only
      split
      · rename_i hw; exact fin w _ hw.1.le hw.2.le
      · exact fin v _ hv1 hv2
    | _ => exact fin v _ hv1 hv2
  · rw [if_neg c]
    exact ⟨q, n, rfl, h, rfl, rfl⟩

theorem psqAdjust_heights (hs : R.Shrinks) {m : ℕ} {q n : ℕ → Fl R} (h : ∀ {i j}, i ≤ j → j < m → q i ≤ q j)
    (t : ℕ → Fl R) :
    ∃ q' n', psqAdjust (tab m t) (tab m q, tab m n) = .val (tab m q', tab m n') ∧
      (∀ {i j}, i ≤ j → j < m → q' i ≤ q' j) ∧ q' 0 = q 0 ∧ q' (m - 1) = q (m - 1) := by
  unfold psqAdjust
  rw [tab_length]
  have hl : ∀ i ∈ List.range' 1 (m - 2), 1 ≤ i ∧ i + 1 < m := by
    intro i hi
    rw [List.mem_range'_1] at hi
    omega
  revert hl
  generalize List.range' 1 (m - 2) = l
  intro hl
  induction l generalizing q n with
  | nil => exact ⟨q, n, rfl, h, rfl, rfl⟩
  | cons i l ih =>
    obtain ⟨a1, b1, e1, o1, k1, l1⟩ := psqAdjust1_heights hs (n := n) h (hl i (by simp)).1 (hl i (by simp)).2 t
    obtain ⟨a2, b2, e2, o2, k2, l2⟩ := ih (n := b1) o1 (fun j hj => hl j (by simp [hj]))
    refine ⟨a2, b2, ?_, o2, k2.trans k1, l2.trans l1⟩
    rw [foldRes, e1, Res.val_bind, e2]

/-! ## A push -/

/-- The `m` heights after the samples `xs`: the samples until there are `m`, from then on in order from the least to the
greatest sample. -/
structure HeightsOk (m : ℕ) (hs : List (Fl R)) (xs : List (Fl R)) : Prop where
  before : xs.length < m → hs = xs ++ List.replicate (m - xs.length) 0
  after : m ≤ xs.length → ∃ q : ℕ → Fl R, hs = tab m q ∧ (∀ {i j}, i ≤ j → j < m → q i ≤ q j) ∧
    IsLeast {x | x ∈ xs} (q 0) ∧ IsGreatest {x | x ∈ xs} (q (m - 1))

theorem HeightsOk.len {m : ℕ} {hs xs : List (Fl R)} (h : HeightsOk m hs xs) : hs.length = m := by
  rcases Nat.lt_or_ge xs.length m with c | c
  · rw [h.before c]; simp; omega
  · obtain ⟨q, e, -⟩ := h.after c
    rw [e, tab_length]

theorem heights_init {m : ℕ} (hm : 2 ≤ m) : HeightsOk (R := R) m (List.replicate m 0) [] :=
  ⟨fun _ => by simp, fun h => by simp at h; omega⟩

/-- Entering one of the first samples. -/
theorem heights_set {m : ℕ} {hs xs : List (Fl R)} (h : HeightsOk m hs xs) (x : Fl R) (hx : xs.length + 1 ≤ m) :
    setAt hs xs.length x = .val (xs ++ [x] ++ List.replicate (m - (xs.length + 1)) 0) := by
  rw [setAt_lt (by rw [h.len]; omega), h.before (by omega), List.set_append_right _ _ le_rfl, Nat.sub_self,
    show m - xs.length = (m - (xs.length + 1)) + 1 by omega, List.replicate_succ, List.set_cons_zero]
  simp

/-- Any sorted arrangement of the first `m` samples is a start. -/
theorem heights_start {m : ℕ} (hm : 2 ≤ m) {l xs : List (Fl R)} (hp : l.Perm xs) (hl : xs.length = m)
    (hs : l.Pairwise (· ≤ ·)) : HeightsOk m l xs := by
  have hll : l.length = m := hp.length_eq.trans hl
  have hget : ∀ i (hi : i < m), (l[i]?).getD 0 = l[i]'(by omega) := by
    intro i hi
    rw [List.getElem?_eq_getElem (by omega)]; rfl
  have hmono : ∀ {i j}, i ≤ j → j < m → (l[i]?).getD 0 ≤ (l[j]?).getD 0 := by
    intro i j hij hj
    rw [hget i (by omega), hget j hj]
    rcases hij.eq_or_lt with rfl | hij
    · exact le_rfl
    · exact List.pairwise_iff_getElem.1 hs i j (by omega) (by omega) hij
  refine ⟨fun h => by omega, fun _ => ⟨fun i => (l[i]?).getD 0, ?_, hmono, ⟨?_, ?_⟩, ⟨?_, ?_⟩⟩⟩
  · conv_lhs => rw [eq_tab l 0, hll]
  · show (l[0]?).getD 0 ∈ _
    rw [hget 0 (by omega)]
    exact hp.mem_iff.1 (List.getElem_mem _)
  · intro y hy
    obtain ⟨i, hi, rfl⟩ := List.mem_iff_getElem.1 (hp.mem_iff.2 hy)
    rw [← hget i (by omega)]
    exact hmono (by omega) (by omega)
  · show (l[m - 1]?).getD 0 ∈ _
    rw [hget (m - 1) (by omega)]
    exact hp.mem_iff.1 (List.getElem_mem _)
  · intro y hy
    obtain ⟨i, hi, rfl⟩ := List.mem_iff_getElem.1 (hp.mem_iff.2 hy)
    rw [← hget i (by omega)]
    exact hmono (by omega) (by omega)

theorem extremes_snoc {xs : List (Fl R)} {a b : Fl R} (h1 : IsLeast {x | x ∈ xs} a) (h2 : IsGreatest {x | x ∈ xs} b)
    (x : Fl R) : IsLeast {y | y ∈ xs ++ [x]} (min a x) ∧ IsGreatest {y | y ∈ xs ++ [x]} (max b x) := by
  refine ⟨⟨?_, ?_⟩, ⟨?_, ?_⟩⟩
  · rcases min_choice a x with c | c
    · rw [c]; exact List.mem_append_left _ h1.1
    · rw [c]; simp
  · intro y hy
    rcases List.mem_append.1 hy with hy | hy
    · exact (min_le_left _ _).trans (h1.2 hy)
    · rw [List.mem_singleton.1 hy]; exact min_le_right _ _
  · rcases max_choice b x with c | c
    · rw [c]; exact List.mem_append_left _ h2.1
    · rw [c]; simp
  · intro y hy
    rcases List.mem_append.1 hy with hy | hy
    · exact (h2.2 hy).trans (le_max_left _ _)
    · rw [List.mem_singleton.1 hy]; exact le_max_right _ _

/-- The adjustment after a later sample. -/
theorem heights_later (hs : R.Shrinks) {m : ℕ} (hm : 2 ≤ m) {hts xs : List (Fl R)} (h : HeightsOk m hts xs)
    (hc : m ≤ xs.length) (x : Fl R) :
    ∃ h' k b, psqCell hts x = .val (h', k, b) ∧ ∀ pos des : List (Fl R), pos.length = m → des.length = m →
      ∃ h'' pos', psqAdjust des (h', pos) = .val (h'', pos') ∧ HeightsOk m h'' (xs ++ [x]) ∧ pos'.length = m := by
  obtain ⟨q, rfl, hq, hmin, hmax⟩ := h.after hc
  obtain ⟨q1, k, b, e1, -, -, hq1, q10, q1l⟩ := psqCell_sorted hm hq x
  refine ⟨_, k, b, e1, fun pos des hp hd => ?_⟩
  obtain ⟨q2, n2, e2, o2, k2, l2⟩ := psqAdjust_heights hs (n := fun i => (pos[i]?).getD 0) hq1 (fun i => (des[i]?).getD 0)
  have ep := eq_tab pos 0
  have ed := eq_tab des 0
  rw [hp] at ep
  rw [hd] at ed
  refine ⟨tab m q2, tab m n2, ?_, ⟨fun h' => ?_, fun _ => ⟨q2, rfl, o2, ?_⟩⟩, by simp⟩
  · rw [ep, ed]; exact e2
  · simp at h'; omega
  · rw [k2, l2, q10, q1l]
    exact extremes_snoc hmin hmax x

/-- State of an unweighted estimator. -/
structure PsqSt.HInv (m : ℕ) (s : PsqSt (Fl R)) (xs : List (Fl R)) : Prop where
  cnt : s.cnt = xs.length
  des : s.des.length = m
  pos : s.pos.length = m
  heights : HeightsOk m s.heights xs

theorem psqPush_heights (hs : R.Shrinks) {m : ℕ} (hm : 2 ≤ m) {incr : List (Fl R)} (hil : incr.length = m)
    {s : PsqSt (Fl R)} {xs : List (Fl R)} (x : Fl R) (h : s.HInv m xs) :
    ∃ s', psqPush incr s x = .val s' ∧ s'.HInv m (xs ++ [x]) := by
  unfold psqPush psqStep
  simp only [hil, h.cnt]
  by_cases hc : xs.length + 1 ≤ m
  · rw [if_pos hc, Nat.add_sub_cancel, heights_set h.heights x hc, Res.val_bind, Res.pure_eq]
    refine ⟨_, rfl, by simp, h.des, h.pos, ?_⟩
    rcases Nat.lt_or_eq_of_le hc with hlt | heq
    · simp only [if_neg (show xs.length + 1 ≠ m by omega)]
      exact ⟨fun _ => by simp, fun h' => by simp at h'; omega⟩
    · simp only [if_pos heq, show m - (xs.length + 1) = 0 by omega, List.replicate_zero, List.append_nil]
      exact heights_start hm (List.perm_insertionSort _ _) (by simpa using heq) (List.pairwise_insertionSort (· ≤ ·) _)
  · obtain ⟨h', k, b, e1, hadj⟩ := heights_later hs hm h.heights (by omega) x
    obtain ⟨h'', pos', e2, I, hp⟩ := hadj (psqBump k 1 s.pos) (List.zipWith (· + ·) s.des incr)
      (by simp [psqBump, h.pos]) (by simp [h.des, hil])
    rw [if_neg hc, e1, Res.val_bind]
    simp only
    rw [e2, Res.val_bind, Res.pure_eq]
    exact ⟨_, rfl, by simp, by simp [h.des, hil], hp, I⟩

theorem psqInit_heights {m : ℕ} (hm : 2 ≤ m) {incr des : List (Fl R)} (hi : incr.length = m) (hd : des.length = m) :
    (psqInit incr des).HInv m [] := by
  refine ⟨rfl, hd, by simp [psqInit, hi], ?_⟩
  have e : (psqInit incr des).heights = List.replicate m 0 := by simp [psqInit, hi]
  rw [e]
  exact heights_init hm

/-- State of a weighted estimator after the weighted samples `ps`. -/
structure WPsqSt.HInv (m : ℕ) (s : WPsqSt (Fl R)) (ps : List (Fl R × Fl R)) : Prop where
  cnt : s.cnt = ps.length
  pos : s.pos.length = m
  before : ps.length < m → s.pos = ps.map Prod.snd ++ List.replicate (m - ps.length) 0
  heights : HeightsOk m s.heights (ps.map Prod.fst)

theorem wpsqPush_heights (hs : R.Shrinks) {m summed : ℕ} (hm : 2 ≤ m) (hsm : summed ≤ m)
    {desired : Fl R → Fl R → Res (List (Fl R))} (hd : ∀ n0 W, ∃ des, desired n0 W = .val des ∧ des.length = m)
    {s : WPsqSt (Fl R)} {ps : List (Fl R × Fl R)} (p : Fl R × Fl R) (h : s.HInv m ps) :
    ∃ s', wpsqPush m summed desired s p = .val s' ∧ s'.HInv m (ps ++ [p]) := by
  unfold wpsqPush wpsqStep
  simp only [h.cnt]
  by_cases hc : ps.length + 1 ≤ m
  · have e1 := heights_set h.heights p.1 (by simpa using hc)
    rw [List.length_map] at e1
    have e2 : setAt s.pos ps.length p.2
        = .val ((ps ++ [p]).map Prod.snd ++ List.replicate (m - (ps.length + 1)) 0) := by
      rw [setAt_lt (by rw [h.pos]; omega), h.before (by omega), List.set_append_right _ _ (by simp), List.length_map,
        Nat.sub_self, show m - ps.length = (m - (ps.length + 1)) + 1 by omega, List.replicate_succ, List.set_cons_zero]
      simp
    rw [if_pos hc, Nat.add_sub_cancel, e1, Res.val_bind, e2, Res.val_bind]
    rcases Nat.lt_or_eq_of_le hc with hlt | heq
    · rw [if_neg (by omega), Res.pure_eq]
      refine ⟨_, rfl, by simp, by simp; omega, fun _ => by simp, ⟨fun _ => by simp, fun h' => ?_⟩⟩
      simp at h'; omega
    · rw [if_pos heq, Res.pure_eq]
      have hz : ((ps ++ [p]).map Prod.fst).zip ((ps ++ [p]).map Prod.snd) = ps ++ [p] := by
        rw [← List.unzip_fst, ← List.unzip_snd, List.zip_unzip]
      have hln : (ps ++ [p]).length = m := by simp; omega
      have hfst : ps.map Prod.fst ++ [p.1] = (ps ++ [p]).map Prod.fst := by simp
      simp only [show m - (ps.length + 1) = 0 by omega, List.replicate_zero, List.append_nil, hfst, hz]
      obtain ⟨hp, hsort⟩ := selSort_spec m (ps ++ [p]) hln
      have hll : (selSort m (ps ++ [p])).length = m := by rw [hp.length_eq, hln]
      refine ⟨_, rfl, by simp, ?_, fun h' => by simp at h'; omega, ?_⟩
      · simp only [List.length_append, prefixSums_length, List.length_take, List.length_drop, List.length_map, hll]
        omega
      · exact heights_start hm (hp.map _) (by rw [List.length_map, hln]) (List.pairwise_map.2 hsort)
  · obtain ⟨h', k, b, e1, hadj⟩ := heights_later hs hm h.heights (by rw [List.length_map]; omega) p.1
    rw [if_neg hc, e1, Res.val_bind]
    have rest : ∀ pos : List (Fl R), pos.length = m → ∃ s', (do
        let n0 ← getAt (psqBump k p.2 pos) 0
        let des ← desired n0 (s.wsum + p.2)
        let r ← psqAdjust des (h', psqBump k p.2 pos)
        pure ⟨ps.length + 1, s.wsum + p.2, r.1, r.2⟩ : Res (WPsqSt (Fl R))) = .val s' ∧ s'.HInv m (ps ++ [p]) := by
      intro pos l2
      have l3 : (psqBump k p.2 pos).length = m := by simp [psqBump, l2]
      rw [getAt_lt (show 0 < (psqBump k p.2 pos).length by omega), Res.val_bind]
      obtain ⟨des, e3, l4⟩ := hd (psqBump k p.2 pos)[0] (s.wsum + p.2)
      obtain ⟨h'', pos', e4, I, l5⟩ := hadj (psqBump k p.2 pos) des l3 l4
      rw [e3, Res.val_bind, e4, Res.val_bind, Res.pure_eq]
      refine ⟨_, rfl, by simp, l5, fun h' => by simp at h'; omega, ?_⟩
      rw [List.map_append]
      exact I
    cases b
    · exact rest s.pos h.pos
    · simp only [if_true, setAt_lt (show 0 < s.pos.length by rw [h.pos]; omega), Res.val_bind]
      exact rest _ (by simp [h.pos])

theorem wpsqInit_heights {m : ℕ} (hm : 2 ≤ m) : (wpsqInit (K := Fl R) m).HInv m [] :=
  ⟨rfl, by simp [wpsqInit], fun _ => by simp [wpsqInit], heights_init hm⟩

/-- The desired positions of `weighted_extended_p_square` exist. -/
theorem wepsqDes_length {ps : List (Fl R)} (h0 : ps ≠ []) (n0 W : Fl R) :
    ∃ des, wepsqDes ps n0 W = .val des ∧ des.length = 2 * ps.length + 3 := by
  have hl : 0 < ps.length := List.length_pos_of_ne_nil h0
  unfold wepsqDes getBack
  rw [getAt_lt hl, Res.val_bind, if_pos (show 1 ≤ ps.length from hl), getAt_lt (by omega), Res.val_bind,
    mapRes_val (g := fun i => [(W - n0) * ((ps[i - 1]?).getD 0 + (ps[i]?).getD 0) / 2 + n0,
      (W - n0) * (ps[i]?).getD 0 + n0]), Res.val_bind, Res.pure_eq]
  · refine ⟨_, rfl, ?_⟩
    simp [List.length_flatten, Function.comp_def]
    omega
  · intro i hi
    rw [List.mem_range'_1] at hi
    have h1 : i - 1 < ps.length := by omega
    have h2 : i < ps.length := by omega
    simp [getAt_lt h1, getAt_lt h2, h1, h2]

/-! ## Histories -/

/-- `s` says what `HeightsOk` does, in terms of lists. -/
theorem HeightsOk.list {m : ℕ} (hm : 2 ≤ m) {hs xs : List (Fl R)} (h : HeightsOk m hs xs) (hx : m ≤ xs.length) :
    hs.length = m ∧ hs.Pairwise (· ≤ ·) ∧ (∃ a, hs.head? = some a ∧ IsLeast {x | x ∈ xs} a) ∧
      ∃ b, hs.getLast? = some b ∧ IsGreatest {x | x ∈ xs} b := by
  obtain ⟨q, rfl, hq, hmin, hmax⟩ := h.after hx
  refine ⟨by simp, ?_, ⟨q 0, ?_, hmin⟩, ⟨q (m - 1), ?_, hmax⟩⟩
  · rw [List.pairwise_iff_getElem]
    intro i j hi hj hij
    rw [tab_getElem, tab_getElem]
    exact hq hij.le (by simpa using hj)
  · rw [List.head?_eq_getElem?, List.getElem?_eq_getElem (by simp; omega), tab_getElem]
  · rw [List.getLast?_eq_getElem?, List.getElem?_eq_getElem (by simp; omega), tab_getElem, tab_length]

/-- Any of the heights lies within the data. -/
theorem HeightsOk.within {m : ℕ} {hs xs : List (Fl R)} (h : HeightsOk m hs xs) (hx : m ≤ xs.length) {i : ℕ}
    (hi : i < m) : ∃ v, getAt hs i = .val v ∧ (∃ a ∈ xs, a ≤ v) ∧ ∃ b ∈ xs, v ≤ b := by
  obtain ⟨q, rfl, hq, hmin, hmax⟩ := h.after hx
  exact ⟨q i, getAt_tab _ hi, ⟨_, hmin.1, hq (by omega) hi⟩, ⟨_, hmax.1, hq (by omega) (by omega)⟩⟩

/-- The estimates of the extended estimators: every second height. -/
theorem HeightsOk.extended {n : ℕ} {hs xs : List (Fl R)} (h : HeightsOk (2 * n + 3) hs xs) (hx : 2 * n + 3 ≤ xs.length) :
    ∃ vs, epsqResult n hs = .val vs ∧ vs.length = n ∧ vs.Pairwise (· ≤ ·) ∧
      ∀ v ∈ vs, (∃ a ∈ xs, a ≤ v) ∧ ∃ b ∈ xs, v ≤ b := by
  obtain ⟨q, rfl, hq, hmin, hmax⟩ := h.after hx
  refine ⟨(List.range' 1 n).map fun i => q (2 * i), ?_, by simp, ?_, ?_⟩
  · unfold epsqResult
    rw [mapRes_val]
    intro i hi
    rw [List.mem_range'_1] at hi
    exact getAt_tab _ (by omega)
  · rw [List.pairwise_iff_getElem]
    intro i j hi hj hij
    simp only [List.length_map, List.length_range'] at hi hj
    simp only [List.getElem_map, List.getElem_range', one_mul]
    exact hq (by omega) (by omega)
  · intro v hv
    obtain ⟨i, hi, rfl⟩ := List.mem_map.mp hv
    rw [List.mem_range'_1] at hi
    exact ⟨⟨_, hmin.1, hq (by omega) (by omega)⟩, ⟨_, hmax.1, hq (by omega) (by omega)⟩⟩

theorem epsqResult_defined {n : ℕ} {hs : List (Fl R)} (h : hs.length = 2 * n + 3) : ∃ vs, epsqResult n hs = .val vs := by
  unfold epsqResult
  rw [mapRes_val (g := fun i => (hs[2 * i]?).getD 0)]
  · exact ⟨_, rfl⟩
  · intro i hi
    rw [List.mem_range'_1] at hi
    have : 2 * i < hs.length := by omega
    rw [getAt_lt this, List.getElem?_eq_getElem this]
    rfl

/-- The distribution functions: heights in order, each with its position divided by the total. -/
theorem psqHist_heights {hs pos : List (Fl R)} (h : pos.length = hs.length) (n : Fl R) :
    ∃ pts, psqHist hs pos n = .val pts ∧ pts.map Prod.fst = hs := by
  unfold psqHist
  rw [mapRes_val (g := fun i => ((hs[i]?).getD 0, fdiv ((pos[i]?).getD 0) n))]
  · refine ⟨_, rfl, ?_⟩
    conv_rhs => rw [eq_tab hs 0]
    rw [List.map_map]
    rfl
  · intro i hi
    have i1 := List.mem_range.1 hi
    have i2 : i < pos.length := by omega
    simp [getAt_lt i1, getAt_lt i2, i1, i2]

theorem wpsqQuantile_heights (hs : R.Shrinks) (p : Fl R) (h : List (Op (Fl R × Fl R) Unit)) :
    ∃ s, (wpsqQuantileSet p).exec (wpsqQuantileSet p).init h = .val s ∧ s.HInv 5 (pushes h) := by
  have := RMachine.exec_inv (wpsqQuantileSet p) (fun s ps => s.HInv 5 ps)
    (fun s ps x I => wpsqPush_heights (m := 5) (summed := 5) hs (by norm_num) le_rfl
      (desired := fun n0 W => .val (wpsqQuantileDes p n0 W)) (fun n0 W => ⟨_, rfl, rfl⟩) x I)
    (fun s ps q I => by
      have hl : 2 < s.heights.length := by rw [I.heights.len]; norm_num
      refine ⟨s, s.heights[2], ?_, I⟩
      simp only [wpsqQuantileSet, getAt_lt hl, Res.val_bind, Res.pure_eq])
    (wpsqQuantileSet p).init [] (wpsqInit_heights (by norm_num)) h
  simpa using this

theorem psqQuantile_heights (hs : R.Shrinks) (p : Fl R) (h : List (Op (Fl R) Unit)) :
    ∃ s, (psqQuantileSet p).exec (psqQuantileSet p).init h = .val s ∧ s.HInv 5 (pushes h) := by
  have := RMachine.exec_inv (psqQuantileSet p) (fun s ps => s.HInv 5 ps)
    (fun s ps x I => psqPush_heights (m := 5) hs (by norm_num) rfl x I)
    (fun s ps q I => by
      have hl : 2 < s.heights.length := by rw [I.heights.len]; norm_num
      refine ⟨s, s.heights[2], ?_, I⟩
      simp only [psqQuantileSet, getAt_lt hl, Res.val_bind, Res.pure_eq])
    (psqQuantileSet p).init [] (psqInit_heights (by norm_num) rfl rfl) h
  simpa using this

/-! ## C85 -/

/-- **C85** `weighted_p_square_quantile`: from five samples on, whatever the weights (negative ones included) and however
many samples there are, the heights are non-decreasing, their first is the least and their last the greatest sample, and
nothing undefined happens. -/
theorem C85_weighted_heights (hs : R.Shrinks) (p : Fl R) (h : List (Op (Fl R × Fl R) Unit))
    (h5 : 5 ≤ (pushes h).length) :
    ∃ s, (wpsqQuantileSet p).exec (wpsqQuantileSet p).init h = .val s ∧ s.heights.length = 5 ∧
      s.heights.Pairwise (· ≤ ·) ∧
      (∃ a, s.heights.head? = some a ∧ IsLeast {x | x ∈ (pushes h).map Prod.fst} a) ∧
      ∃ b, s.heights.getLast? = some b ∧ IsGreatest {x | x ∈ (pushes h).map Prod.fst} b := by
  obtain ⟨s, e, I⟩ := wpsqQuantile_heights hs p h
  exact ⟨s, e, I.heights.list (by norm_num) (by simpa using h5)⟩

/-- **C85** The estimates of `weighted_p_square_quantile` (and of `weighted_median`) and of `p_square_quantile` (and of
`median`) lie within the data; the number of samples need not be representable. -/
theorem C85_quantile_within (hs : R.Shrinks) (p : Fl R) :
    (∀ h : List (Op (Fl R × Fl R) Unit), 5 ≤ (pushes h).length → ∃ v, (wpsqQuantileSet p).answer h () = .val v ∧
      (∃ a ∈ (pushes h).map Prod.fst, a ≤ v) ∧ ∃ b ∈ (pushes h).map Prod.fst, v ≤ b) ∧
    ∀ h : List (Op (Fl R) Unit), 5 ≤ (pushes h).length → ∃ v, (psqQuantileSet p).answer h () = .val v ∧
      (∃ a ∈ pushes h, a ≤ v) ∧ ∃ b ∈ pushes h, v ≤ b := by
  constructor
  · intro h h5
    obtain ⟨s, e, I⟩ := wpsqQuantile_heights hs p h
    obtain ⟨v, ev, hv⟩ := I.heights.within (i := 2) (by simpa using h5) (by norm_num)
    refine ⟨v, ?_, hv⟩
    unfold RMachine.answer
    rw [e, Res.val_bind]
    simp only [wpsqQuantileSet, ev, Res.val_bind, Res.pure_eq]
  · intro h h5
    obtain ⟨s, e, I⟩ := psqQuantile_heights hs p h
    obtain ⟨v, ev, hv⟩ := I.heights.within (i := 2) h5 (by norm_num)
    refine ⟨v, ?_, hv⟩
    unfold RMachine.answer
    rw [e, Res.val_bind]
    simp only [psqQuantileSet, ev, Res.val_bind, Res.pure_eq]

/-- **C85** `weighted_extended_p_square` and `extended_p_square`: the estimates are non-decreasing and lie within the
data. -/
theorem C85_extended (hs : R.Shrinks) (ps : List (Fl R)) :
    (ps ≠ [] → ∀ h : List (Op (Fl R × Fl R) Unit), 2 * ps.length + 3 ≤ (pushes h).length →
      ∃ vs, (wepsqSet ps).answer h () = .val vs ∧ vs.length = ps.length ∧ vs.Pairwise (· ≤ ·) ∧
        ∀ v ∈ vs, (∃ a ∈ (pushes h).map Prod.fst, a ≤ v) ∧ ∃ b ∈ (pushes h).map Prod.fst, v ≤ b) ∧
    ∀ h : List (Op (Fl R) Unit), 2 * ps.length + 3 ≤ (pushes h).length →
      ∃ vs, (epsqSet ps).answer h () = .val vs ∧ vs.length = ps.length ∧ vs.Pairwise (· ≤ ·) ∧
        ∀ v ∈ vs, (∃ a ∈ pushes h, a ≤ v) ∧ ∃ b ∈ pushes h, v ≤ b := by
  constructor
  · intro h0 h hn
    obtain ⟨s, e, I⟩ := RMachine.exec_inv (wepsqSet ps) (fun s qs => s.HInv (2 * ps.length + 3) qs)
      (fun s qs x I => wpsqPush_heights hs (by omega) le_rfl (wepsqDes_length h0) x I)
      (fun s qs q I => by
        obtain ⟨vs, ev⟩ := epsqResult_defined (n := ps.length) I.heights.len
        refine ⟨s, vs, ?_, I⟩
        simp only [wepsqSet, ev, Res.val_bind, Res.pure_eq])
      (wepsqSet ps).init [] (wpsqInit_heights (by omega)) h
    rw [List.nil_append] at I
    obtain ⟨vs, ev, hv⟩ := I.heights.extended (by simpa using hn)
    refine ⟨vs, ?_, hv⟩
    unfold RMachine.answer
    rw [e, Res.val_bind]
    simp only [wepsqSet, ev, Res.val_bind, Res.pure_eq]
  · intro h hn
    have hi : (epsqIncr ps).length = 2 * ps.length + 3 := by
      have : ∀ (prev : Fl R) (l : List (Fl R)), (interleave prev l).length = 2 * l.length := by
        intro prev l
        induction l generalizing prev with
        | nil => rfl
        | cons a l ih => simp [interleave, ih]; omega
      simp [epsqIncr, this]; ring
    obtain ⟨s, e, I⟩ := RMachine.exec_inv (epsqSet ps) (fun s qs => s.HInv (2 * ps.length + 3) qs)
      (fun s qs x I => psqPush_heights hs (by omega) hi x I)
      (fun s qs q I => by
        obtain ⟨vs, ev⟩ := epsqResult_defined (n := ps.length) I.heights.len
        refine ⟨s, vs, ?_, I⟩
        simp only [epsqSet, ev, Res.val_bind, Res.pure_eq])
      (epsqSet ps).init [] (psqInit_heights (by omega) hi (by simp [epsqDes, hi])) h
    rw [List.nil_append] at I
    obtain ⟨vs, ev, hv⟩ := I.heights.extended hn
    refine ⟨vs, ?_, hv⟩
    unfold RMachine.answer
    rw [e, Res.val_bind]
    simp only [epsqSet, ev, Res.val_bind, Res.pure_eq]

/-- **C85** The heights reported by `weighted_p_square_cumulative_distribution` are non-decreasing from the least to the
greatest sample. -/
theorem C85_weighted_cumul (hs : R.Shrinks) {b : ℕ} (hb : 0 < b) (h : List (Op (Fl R × Fl R) Unit))
    (hn : b + 1 ≤ (pushes h).length) :
    ∃ pts, (wpsqCumulSet b).answer h () = .val pts ∧ pts.length = b + 1 ∧ (pts.map Prod.fst).Pairwise (· ≤ ·) ∧
      (∃ a, (pts.map Prod.fst).head? = some a ∧ IsLeast {x | x ∈ (pushes h).map Prod.fst} a) ∧
      ∃ z, (pts.map Prod.fst).getLast? = some z ∧ IsGreatest {x | x ∈ (pushes h).map Prod.fst} z := by
  obtain ⟨s, e, I, Ih⟩ := RMachine.exec_inv (wpsqCumulSet b)
    (fun s qs => s.m.HInv (b + 1) qs ∧ (s.dirty = false → psqHist s.m.heights s.m.pos s.m.wsum = .val s.hist))
    (fun s qs x I => by
      obtain ⟨m', e, I'⟩ := wpsqPush_heights hs (m := b + 1) (summed := b) (by omega) (by omega)
        (desired := fun n0 W => .val (wpsqCumulDes b n0 W)) (fun n0 W => ⟨_, rfl, by simp [wpsqCumulDes]⟩) x I.1
      refine ⟨{ s with m := m', dirty := true }, ?_, I', by simp⟩
      simp only [wpsqCumulSet, e, Res.val_bind, Res.pure_eq])
    (fun s qs q I => by
      obtain ⟨r, hr, -⟩ := psqHist_heights (I.1.pos.trans I.1.heights.len.symm) s.m.wsum
      by_cases hd : s.dirty
      · refine ⟨{ s with hist := r, dirty := false }, r, ?_, I.1, fun _ => hr⟩
        simp only [wpsqCumulSet, hd, if_true, hr, Res.val_bind, Res.pure_eq]
      · have hd' : s.dirty = false := by simpa using hd
        refine ⟨s, s.hist, ?_, I⟩
        simp only [wpsqCumulSet, hd', Res.pure_eq]
        rfl)
    (wpsqCumulSet b).init [] ⟨wpsqInit_heights (by omega), by simp [wpsqCumulSet]⟩ h
  rw [List.nil_append] at I
  obtain ⟨r, hr, hf⟩ := psqHist_heights (I.pos.trans I.heights.len.symm) s.m.wsum
  obtain ⟨l1, l2⟩ := I.heights.list (by omega) (by simpa using hn)
  refine ⟨r, ?_, by rw [← List.length_map (f := Prod.fst), hf, l1], by rw [hf]; exact l2⟩
  unfold RMachine.answer
  rw [e, Res.val_bind]
  by_cases hd : s.dirty
  · simp only [wpsqCumulSet, hd, if_true, hr, Res.val_bind, Res.pure_eq]
  · have hd' : s.dirty = false := by simpa using hd
    have := Ih hd'
    rw [hr, Res.val.injEq] at this
    simp only [wpsqCumulSet, hd', Res.pure_eq, this]
    rfl

/-! ## Binary formats -/

/-- Two bits of precision are enough. -/
theorem nearest_shrinks {p : ℕ} (hp : 2 ≤ p) : (nearest p (by omega)).Shrinks := by
  intro y c hy hfy hfc hc
  change roundBits p c = c at hfc
  change roundBits p (y / c) < y
  have hc0 : 0 < c := by linarith
  have hyc : 0 < y / c := div_pos hy hc0
  -- the least number above 1
  have hgap : 1 + (2 : ℚ) ^ (1 - (p : ℤ)) ≤ c := by
    rw [roundBits_pos hc0, roundPos] at hfc
    have he : 0 ≤ expo c := by
      by_contra hneg
      have h1 := lt_pow hc0
      have h2 : (2 : ℚ) ^ (expo c + 1) ≤ 2 ^ (0 : ℤ) := zpow_le_zpow_right₀ (by norm_num) (by omega)
      rw [zpow_zero] at h2
      linarith
    rcases he.eq_or_lt with e | l
    · have hu : ulp p c = (2 : ℚ) ^ (1 - (p : ℤ)) := by rw [ulp, ← e]; congr 1; ring
      rw [hu] at hfc
      set m := roundEven (c / 2 ^ (1 - (p : ℤ)))
      have h1 : ((2 ^ (p - 1) : ℤ) : ℚ) * 2 ^ (1 - (p : ℤ)) = 1 := by
        push_cast
        rw [← zpow_natCast, ← zpow_add₀ (by norm_num), show ((p - 1 : ℕ) : ℤ) + (1 - p) = 0 by omega, zpow_zero]
      have hu0 : (0 : ℚ) < 2 ^ (1 - (p : ℤ)) := zpow_pos (by norm_num) _
      have h2 : (2 ^ (p - 1) : ℤ) < m := by
        by_contra hle
        have : (m : ℚ) ≤ ((2 ^ (p - 1) : ℤ) : ℚ) := by exact_mod_cast not_lt.1 hle
        have := mul_le_mul_of_nonneg_right this hu0.le
        linarith
      have h3 : (((2 ^ (p - 1) + 1 : ℤ)) : ℚ) ≤ m := by exact_mod_cast h2
      have h4 := mul_le_mul_of_nonneg_right h3 hu0.le
      push_cast at h4 h1
      linarith
    · have h1 := pow_le hc0
      have h2 : (2 : ℚ) ^ (1 : ℤ) ≤ 2 ^ expo c := zpow_le_zpow_right₀ (by norm_num) (by omega)
      have h3 : (2 : ℚ) ^ (1 - (p : ℤ)) ≤ 2 ^ (0 : ℤ) := zpow_le_zpow_right₀ (by norm_num) (by omega)
      rw [zpow_one] at h2
      rw [zpow_zero] at h3
      linarith
  -- an error of half an ulp does not reach `y` again
  have hle : y / c ≤ y := div_le_self hy.le hc.le
  have hulp : ulp p (y / c) ≤ ulp p y := by
    have := expo_mono hyc hle
    exact zpow_le_zpow_right₀ (by norm_num) (by omega)
  rw [roundBits_pos hyc]
  have herr := abs_le.1 (roundPos_err p (y / c))
  have hyu := pow_le hy
  rw [pow_eq_ulp p y] at hyu
  have hu := ulp_pos p y
  have h2p : (2 : ℚ) ^ ((p : ℤ) - 1) * 2 ^ (1 - (p : ℤ)) = 1 := by
    rw [← zpow_add₀ (by norm_num), show (p : ℤ) - 1 + (1 - p) = 0 by ring, zpow_zero]
  have hP : (2 : ℚ) ≤ 2 ^ ((p : ℤ) - 1) := by
    calc (2 : ℚ) = 2 ^ (1 : ℤ) := by norm_num
      _ ≤ _ := zpow_le_zpow_right₀ (by norm_num) (by omega)
  set P := (2 : ℚ) ^ ((p : ℤ) - 1)
  set δ := (2 : ℚ) ^ (1 - (p : ℤ))
  have key : c < 2 * P * (c - 1) := by nlinarith
  have key2 : ulp p y * c < 2 * y * (c - 1) := by
    have h1 : ulp p y * c < ulp p y * (2 * P * (c - 1)) := mul_lt_mul_of_pos_left key hu
    have h2 : 2 * (P * ulp p y) * (c - 1) ≤ 2 * y * (c - 1) :=
      mul_le_mul_of_nonneg_right (by linarith) (by linarith)
    linarith
  have key3 : ulp p y / 2 < y - y / c := by
    rw [show y - y / c = y * (c - 1) / c by field_simp, lt_div_iff₀ hc0]
    linarith
  linarith [herr.2]

theorem double_shrinks : double.Shrinks := nearest_shrinks (by norm_num)

/-- Seven `double`s with weights that are not representable exactly. -/
def wpsqDoubles : List (Op (Fl double × Fl double) Unit) :=
  onlyPushes ([(1, 3), (7, 1), (3, 7), (9, 2), (2, 5), (8, 1), (4, 3)].map fun q : ℚ × ℚ =>
    (Fl.ofK double (q.1 / 10), Fl.ofK double (q.2 / 10)))

example : ∃ v, (wpsqQuantileSet (Fl.ofK double (1 / 2))).answer wpsqDoubles () = .val v ∧
    (∃ a ∈ (pushes wpsqDoubles).map Prod.fst, a ≤ v) ∧ ∃ b ∈ (pushes wpsqDoubles).map Prod.fst, v ≤ b :=
  (C85_quantile_within double_shrinks _).1 _ (by simp [pushes, onlyPushes, wpsqDoubles])

example : ∃ vs, (wepsqSet ([1 / 4, 3 / 4].map (Fl.ofK double))).answer wpsqDoubles () = .val vs ∧ vs.length = 2 ∧
    vs.Pairwise (· ≤ ·) ∧ ∀ v ∈ vs, (∃ a ∈ (pushes wpsqDoubles).map Prod.fst, a ≤ v) ∧
      ∃ b ∈ (pushes wpsqDoubles).map Prod.fst, v ≤ b :=
  (C85_extended double_shrinks _).1 (by simp) _ (by simp [pushes, onlyPushes, wpsqDoubles])

/-- **C85** The positions do not keep their order strictly: after a weight of `2⁵³` a weight of 1 is lost, and the
markers of five samples stand at the same position.  The estimate is still a number within the data. -/
theorem C85_positions_coincide :
    let h : List (Op (Fl double × Fl double) Unit) := onlyPushes ([(1, 2 ^ 53), (2, 1), (3, 1), (4, 1), (5, 1)].map
      fun q : ℚ × ℚ => (Fl.ofK double q.1, Fl.ofK double q.2))
    ∃ s, (wpsqQuantileSet (Fl.ofK double (1 / 2))).exec (wpsqQuantileSet (Fl.ofK double (1 / 2))).init h = .val s ∧
      s.pos = List.replicate 5 (Fl.ofK double (2 ^ 53)) := by
  refine ⟨_, rfl, ?_⟩
  decide +kernel

end Acc
