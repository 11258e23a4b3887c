import Verif.Model.PSquare
import Verif.Proofs.PSquareSpec

/-! # The P-square accumulators run the P-square algorithm -/

set_option linter.unusedSectionVars false

namespace Acc

variable {K : Type} [Field K] [LinearOrder K] [IsStrictOrderedRing K]

open Spec

/-- The list of the first `m` values of a function. -/
def tab {α : Type} (m : ℕ) (f : ℕ → α) : List α := (List.range m).map f

@[simp] theorem tab_length {α : Type} (m : ℕ) (f : ℕ → α) : (tab m f).length = m := by simp [tab]

theorem tab_getElem {α : Type} {m : ℕ} (f : ℕ → α) {i : ℕ} (h : i < (tab m f).length) :
    (tab m f)[i] = f i := by simp [tab]

theorem tab_congr {α : Type} {m : ℕ} {f g : ℕ → α} (h : ∀ i < m, f i = g i) : tab m f = tab m g := by
  unfold tab
  exact List.map_congr_left fun i hi => h i (List.mem_range.1 hi)

theorem tab_inj {α : Type} {m : ℕ} {f g : ℕ → α} (h : tab m f = tab m g) : ∀ i < m, f i = g i := by
  intro i hi
  have := congrArg (fun l => l[i]?) h
  simpa [tab, hi] using this

theorem getAt_tab {α : Type} {m i : ℕ} (f : ℕ → α) (h : i < m) : getAt (tab m f) i = .val (f i) := by
  rw [getAt_lt (by simpa using h), tab_getElem]

theorem tab_set {α : Type} (m i : ℕ) (f : ℕ → α) (v : α) :
    (tab m f).set i v = tab m (Function.update f i v) := by
  apply List.ext_getElem
  · simp
  · intro j h1 h2
    rw [List.getElem_set, tab_getElem, tab_getElem]
    by_cases h : i = j
    · subst h; simp
    · rw [if_neg h, Function.update_of_ne (Ne.symm h)]

theorem setAt_tab {α : Type} {m i : ℕ} (f : ℕ → α) (h : i < m) (v : α) :
    setAt (tab m f) i v = .val (tab m (Function.update f i v)) := by
  rw [setAt_lt (by simpa using h), tab_set]

theorem eq_tab {α : Type} (l : List α) (d : α) : l = tab l.length (fun i => (l[i]?).getD d) := by
  apply List.ext_getElem
  · simp
  · intro j h1 h2
    rw [tab_getElem]
    simp [h1]

theorem psqBump_tab (k m : ℕ) (w : K) (n : ℕ → K) :
    psqBump k w (tab m n) = tab m (fun i => if k ≤ i then n i + w else n i) := by
  apply List.ext_getElem
  · simp [psqBump]
  · intro j h1 h2
    rw [tab_getElem]
    simp [psqBump, tab_getElem]

theorem tab_sorted {M : Markers K} {m : ℕ} (h : M.Ord m) : (tab m M.q).Pairwise (· ≤ ·) := by
  rw [List.pairwise_iff_getElem]
  intro i j hi hj hij
  rw [tab_getElem, tab_getElem]
  exact h.q_mono hij.le (by simpa using hj)

/-- The cell search and the update of the extremes are those of the algorithm. -/
theorem psqCell_tab {M : Markers K} {m : ℕ} (hm : 2 ≤ m) (h : M.Ord m) (x w : K) :
    psqCell (tab m M.q) x
      = .val (tab m (observe m x w M).q, cellOf m M.q x, decide (x < M.q 0)) := by
  unfold psqCell
  rw [getAt_tab _ (by omega), Res.val_bind, tab_length]
  by_cases h0 : x < M.q 0
  · rw [if_pos h0, setAt_tab _ (by omega)]
    have hc : (List.range m).countP (fun i => decide (M.q i ≤ x)) = 0 :=
      countP_le_eq h x (by omega) (by omega) (fun _ => h0)
    have : cellOf m M.q x = 1 := by unfold cellOf; omega
    simp only [Res.val_bind, Res.pure_eq, this, h0, decide_true]
    congr 2
    apply tab_congr
    intro i hi
    simp only [observe]
    by_cases hi0 : i = 0
    · subst hi0; simp [min_eq_right h0.le]
    · rw [Function.update_of_ne hi0, if_neg hi0]
      have : x < M.q i := lt_of_lt_of_le h0 (h.q_mono (by omega) hi)
      split
      · rw [max_eq_left this.le]
      · rfl
  · rw [if_neg h0, getAt_tab _ (by omega), Res.val_bind]
    by_cases hl : M.q (m - 1) ≤ x
    · rw [if_pos hl, setAt_tab _ (by omega)]
      have hc : (List.range m).countP (fun i => decide (M.q i ≤ x)) = m :=
        countP_le_eq h x le_rfl
          (fun i hi => le_trans (h.q_mono (j := m - 1) (by omega) (by omega)) hl) (by omega)
      have : cellOf m M.q x = m - 1 := by unfold cellOf; omega
      simp only [Res.val_bind, Res.pure_eq, this, h0, decide_false]
      congr 2
      apply tab_congr
      intro i hi
      simp only [observe]
      by_cases hi1 : i = m - 1
      · subst hi1; simp [max_eq_right hl, show m - 1 ≠ 0 by omega]
      · rw [Function.update_of_ne hi1, if_neg hi1]
        split
        · rename_i hi0
          rw [hi0, min_eq_left (not_lt.1 h0)]
        · rfl
    · rw [if_neg hl, upperBound_sorted (tab_sorted h)]
      set k := (tab m M.q).findIdx (fun e => decide (x < e)) with hk
      have hkl : k < m := by
        have : k < (tab m M.q).length := by
          rw [hk, List.findIdx_lt_length]
          refine ⟨M.q (m - 1), ?_, by simpa using hl⟩
          unfold tab
          exact List.mem_map.2 ⟨m - 1, List.mem_range.2 (by omega), rfl⟩
        simpa using this
      have h2 : x < M.q k := by
        have := List.findIdx_getElem (p := fun e => decide (x < e)) (xs := tab m M.q)
          (w := by simpa using hkl)
        rw [tab_getElem] at this
        simpa using this
      have h1 : ∀ i < k, M.q i ≤ x := by
        intro i hi
        have := List.not_of_lt_findIdx (p := fun e => decide (x < e)) (xs := tab m M.q) hi
        rw [tab_getElem] at this
        simpa using this
      have hc := countP_le_eq h x hkl.le h1 (fun _ => h2)
      have hk0 : k ≠ 0 := by
        intro e
        rw [e] at h2
        exact h0 h2
      have : cellOf m M.q x = k := by unfold cellOf; omega
      simp only [Res.val_bind, Res.pure_eq, this, h0, decide_false]
      congr 2
      apply tab_congr
      intro i hi
      simp only [observe]
      split
      · rename_i hi0
        rw [hi0, min_eq_left (not_lt.1 h0)]
      · split
        · rename_i hi1
          rw [hi1, max_eq_left (not_le.1 hl).le]
        · rfl

/-- One iteration of the adjustment loop is `Spec.adjust`; in particular it never divides by zero. -/
theorem psqAdjust1_tab {M : Markers K} {m i : ℕ} (h : M.Ord m) (hi : 1 ≤ i) (hm : i + 1 < m)
    (t : ℕ → K) :
    psqAdjust1 (tab m t) (tab m M.q, tab m M.n) i
      = .val (tab m (adjust t M i).q, tab m (adjust t M i).n) := by
  have hn1 : M.n (i - 1) < M.n i := h.n_mono (by omega) (by omega)
  have hn2 : M.n i < M.n (i + 1) := h.n_mono (by omega) hm
  have e1 : M.n (i + 1) - M.n i ≠ 0 := by linarith
  have e2 : M.n (i - 1) - M.n i ≠ 0 := by intro h; linarith
  have e3 : M.n (i + 1) - M.n i - (M.n (i - 1) - M.n i) ≠ 0 := by intro h; linarith
  have e2' : (M.q (i - 1) - M.q i) / (M.n (i - 1) - M.n i)
      = (M.q i - M.q (i - 1)) / (M.n i - M.n (i - 1)) := by
    rw [← neg_sub (M.q i), ← neg_sub (M.n i), neg_div_neg_eq]
  have e3' : M.n (i + 1) - M.n i - (M.n (i - 1) - M.n i) = M.n (i + 1) - M.n (i - 1) := by ring
  unfold psqAdjust1
  simp only [getAt_tab M.q (show i < m by omega), getAt_tab M.q hm,
    getAt_tab M.q (show i - 1 < m by omega), getAt_tab M.n (show i < m by omega), getAt_tab M.n hm,
    getAt_tab M.n (show i - 1 < m by omega), getAt_tab t (show i < m by omega), Res.val_bind,
    fdiv_ne e1, fdiv_ne e2, fdiv_ne e3, Res.pure_eq, setAt_tab M.q (show i < m by omega),
    setAt_tab M.n (show i < m by omega)]
  unfold adjust
  by_cases c1 : 1 ≤ t i - M.n i ∧ 1 < M.n (i + 1) - M.n i
  · have hd : 0 < t i - M.n i := lt_of_lt_of_le one_pos c1.1
    rw [if_pos (Or.inl c1), if_pos c1]
    simp only [hd, if_true]
    have ep : M.q i + 1 / (M.n (i + 1) - M.n i - (M.n (i - 1) - M.n i)) *
        ((1 - (M.n (i - 1) - M.n i)) * ((M.q (i + 1) - M.q i) / (M.n (i + 1) - M.n i)) +
          (M.n (i + 1) - M.n i - 1) * ((M.q (i - 1) - M.q i) / (M.n (i - 1) - M.n i)))
        = parabolic M i 1 := by
      rw [parabolic, e2', e3']; ring
    simp only [ep, move, linearTo, one_mul]
    split <;> rfl
  · rw [if_neg c1]
    by_cases c2 : t i - M.n i ≤ -1 ∧ M.n (i - 1) - M.n i < -1
    · have hd : ¬ 0 < t i - M.n i := by
        have := c2.1
        intro h; linarith
      rw [if_pos (Or.inr c2), if_pos c2]
      simp only [hd, if_false]
      have ep : M.q i + -1 / (M.n (i + 1) - M.n i - (M.n (i - 1) - M.n i)) *
          ((-1 - (M.n (i - 1) - M.n i)) * ((M.q (i + 1) - M.q i) / (M.n (i + 1) - M.n i)) +
            (M.n (i + 1) - M.n i - -1) * ((M.q (i - 1) - M.q i) / (M.n (i - 1) - M.n i)))
          = parabolic M i (-1) := by
        rw [parabolic, e2', e3']; ring
      simp only [ep, move, linearTo]
      have el : M.q i - (M.q (i - 1) - M.q i) / (M.n (i - 1) - M.n i)
          = M.q i + -1 * ((M.q (i - 1) - M.q i) / (M.n (i - 1) - M.n i)) := by ring
      rw [el]
      split <;> rfl
    · rw [if_neg c2, if_neg (by tauto)]

theorem psqAdjust_tab {M : Markers K} {m : ℕ} (h : M.Ord m) (t : ℕ → K) :
    psqAdjust (tab m t) (tab m M.q, tab m M.n)
      = .val (tab m (adjustAll m t M).q, tab m (adjustAll m t M).n) := by
  unfold psqAdjust adjustAll
  rw [tab_length]
  have hl : ∀ i ∈ List.range' 1 (m - 2), 1 ≤ i ∧ i + 1 < m := fun i hi => mem_inner hi
  revert hl
  generalize List.range' 1 (m - 2) = l
  intro hl
  induction l generalizing M with
  | nil => rfl
  | cons i l ih =>
    have hi := hl i (by simp)
    rw [foldRes, psqAdjust1_tab h hi.1 hi.2, Res.val_bind, List.foldl_cons]
    exact ih (adjust_ord t h hi.1 hi.2) (fun j hj => hl j (by simp [hj]))

/-! ## Unweighted machines -/

theorem unitW_length (xs : List K) : (unitW xs).length = xs.length := by simp [unitW]
theorem unitW_append (xs ys : List K) : unitW (xs ++ ys) = unitW xs ++ unitW ys := by simp [unitW]
theorem pTotal_unitW (xs : List K) : pTotal (unitW xs) = (xs.length : K) := by
  simp [pTotal, unitW, Function.comp_def]
theorem unitW_one {xs : List K} {p : K × K} (h : p ∈ unitW xs) : p.2 = 1 := by
  unfold unitW at h
  obtain ⟨x, _, rfl⟩ := List.mem_map.mp h
  rfl

theorem markersOf_snoc {m : ℕ} (f : ℕ → K) {xs : List K} (h : m ≤ xs.length) (x : K) :
    markersOf m f (xs ++ [x])
      = pStep m f ((xs.length : K) + 1) (markersOf m f xs) (x, 1) := by
  unfold markersOf
  rw [List.take_append_of_le_length h, List.drop_append_of_le_length h, unitW_append,
    show unitW [x] = [(x, 1)] from rfl, pRun_snoc]
  congr 1
  rw [pTotal_append, pTotal_append, pTotal_unitW, pTotal_unitW, List.length_insertionSort,
    List.length_take, List.length_drop, min_eq_left h, ← Nat.cast_add, Nat.add_sub_cancel' h]
  simp [pTotal]

theorem unit_sorted (l : List K) :
    (unitW (l.insertionSort (· ≤ ·))).Pairwise (fun a b => a.1 ≤ b.1) := by
  unfold unitW
  rw [List.pairwise_map]
  exact List.pairwise_insertionSort (· ≤ ·) l

theorem markersOf_good {m : ℕ} (hm : 2 ≤ m) (f : ℕ → K) {xs : List K} (h : m ≤ xs.length) :
    (markersOf m f xs).Good m (unitW ((xs.take m).insertionSort (· ≤ ·)) ++ unitW (xs.drop m)) := by
  apply pRun_good hm f
  · rw [unitW_length, List.length_insertionSort, List.length_take, min_eq_left h]
  · exact unit_sorted _
  · intro p hp
    rw [← unitW_append] at hp
    rw [unitW_one hp]
    exact one_pos

theorem markersOf_unit {m : ℕ} (hm : 2 ≤ m) (f : ℕ → K) {xs : List K} (h : m ≤ xs.length) :
    (markersOf m f xs).n 0 = 1 ∧ ∀ i, ∃ z : ℤ, (markersOf m f xs).n i = z := by
  apply pRun_unit
  · intro e
    have := congrArg List.length e
    rw [unitW_length, List.length_insertionSort, List.length_take, min_eq_left h] at this
    simp at this
    omega
  · intro p hp
    rw [← unitW_append] at hp
    exact unitW_one hp

/-- State of an unweighted P-square accumulator after the samples `xs`. -/
structure PsqSt.Inv (m : ℕ) (f : ℕ → K) (s : PsqSt K) (xs : List K) : Prop where
  cnt : s.cnt = xs.length
  des : s.des = tab m (fun i => 1 + ((max m xs.length : ℕ) - 1 : K) * f i)
  before : xs.length < m → s.heights = xs ++ List.replicate (m - xs.length) 0 ∧
    s.pos = tab m (fun i => (i : K) + 1)
  after : m ≤ xs.length → s.heights = tab m (markersOf m f xs).q ∧
    s.pos = tab m (markersOf m f xs).n

theorem psqInit_inv {m : ℕ} (hm : 2 ≤ m) (f : ℕ → K) {des : List K}
    (hd : des = tab m (fun i => 1 + ((m : K) - 1) * f i)) :
    (psqInit (tab m f) des).Inv m f [] := by
  refine ⟨rfl, ?_, ?_, ?_⟩
  · simpa [psqInit] using hd
  · intro _
    refine ⟨?_, ?_⟩
    · apply List.ext_getElem <;> simp [psqInit]
    · simp [psqInit, tab]
  · intro h
    simp at h
    omega

theorem psqPush_inv {m : ℕ} (hm : 2 ≤ m) (f : ℕ → K) (s : PsqSt K) (xs : List K) (x : K)
    (h : s.Inv m f xs) : ∃ s', psqPush (tab m f) s x = .val s' ∧ s'.Inv m f (xs ++ [x]) := by
  unfold psqPush psqStep
  simp only [tab_length, h.cnt]
  by_cases hc : xs.length + 1 ≤ m
  · rw [if_pos hc]
    obtain ⟨hh, hp⟩ := h.before (by omega)
    have hlen : xs.length < s.heights.length := by rw [hh]; simp; omega
    rw [Nat.add_sub_cancel, setAt_lt hlen, Res.val_bind, Res.pure_eq]
    refine ⟨_, rfl, ?_⟩
    have hset : s.heights.set xs.length x = xs ++ [x] ++ List.replicate (m - (xs.length + 1)) 0 := by
      rw [hh, List.set_append_right _ _ le_rfl, Nat.sub_self,
        show m - xs.length = (m - (xs.length + 1)) + 1 by omega, List.replicate_succ,
        List.set_cons_zero]
      simp
    rcases Nat.lt_or_eq_of_le hc with hlt | heq
    · refine ⟨by simp, ?_, ?_, ?_⟩
      · rw [h.des, List.length_append, List.length_singleton, max_eq_left (by omega),
          max_eq_left (by omega)]
      · intro _
        simp only [if_neg (show xs.length + 1 ≠ m by omega), hset, hp, List.length_append,
          List.length_singleton, and_self]
      · intro h'
        simp at h'
        omega
    · refine ⟨by simp, ?_, ?_, ?_⟩
      · rw [h.des, List.length_append, List.length_singleton, max_eq_left (by omega),
          max_eq_left (by omega)]
      · intro h'
        simp at h'
        omega
      · intro _
        have e : m - (xs.length + 1) = 0 := by omega
        simp only [if_pos heq, hset, hp, e, List.replicate_zero, List.append_nil]
        have hml : m = (xs ++ [x]).length := by simp; omega
        unfold markersOf
        rw [List.take_of_length_le (by omega), List.drop_of_length_le (by omega)]
        set l := (xs ++ [x]).insertionSort (· ≤ ·) with hl
        have hll : l.length = m := by rw [hl, List.length_insertionSort, ← hml]
        constructor
        · conv_lhs => rw [eq_tab l 0, hll]
          apply tab_congr
          intro i hi
          show _ = (pStart (unitW l)).q i
          simp [pStart, unitW, Function.comp_def]
        · apply tab_congr
          intro i hi
          show _ = (pStart (unitW l)).n i
          simp only [pStart, pTotal, unitW]
          rw [← List.map_take, List.map_map]
          simp only [Function.comp_def, List.map_const', List.sum_replicate, List.length_take]
          rw [min_eq_left (by omega)]
          simp
  · rw [if_neg hc]
    have hle : m ≤ xs.length := by omega
    obtain ⟨hh, hp⟩ := h.after hle
    have G := markersOf_good hm f hle
    have U := markersOf_unit hm f hle
    rw [hh, psqCell_tab hm G.toOrd x 1, Res.val_bind, hp, psqBump_tab]
    have hO := observe_ord hm x (one_pos : (0 : K) < 1) G.toOrd G.n0
    have en : tab m (fun i => if cellOf m (markersOf m f xs).q x ≤ i
        then (markersOf m f xs).n i + 1 else (markersOf m f xs).n i)
        = tab m (observe m x 1 (markersOf m f xs)).n := by
      apply tab_congr
      intro i _
      simp only [observe]
      by_cases hi : i = 0
      · subst hi
        have := cellOf_pos m (markersOf m f xs).q x
        rw [if_neg (by omega), if_pos rfl, U.1]
        simp
      · rw [if_neg hi]
    have ed : List.zipWith (· + ·) s.des (tab m f)
        = tab m (fun i => 1 + ((xs.length : K)) * f i) := by
      rw [h.des, max_eq_right hle]
      apply List.ext_getElem
      · simp
      · intro i h1 h2
        simp only [List.getElem_zipWith, tab_getElem]
        ring
    have et : tab m (fun i => 1 + ((xs.length : K)) * f i)
        = tab m (fun i => (observe m x 1 (markersOf m f xs)).n 0
            + ((xs.length : K) + 1 - (observe m x 1 (markersOf m f xs)).n 0) * f i) := by
      apply tab_congr
      intro i _
      have : (observe m x 1 (markersOf m f xs)).n 0 = 1 := by simp [observe, U.1]
      rw [this]; ring
    simp only [en, ed]
    rw [et, psqAdjust_tab hO, Res.val_bind, Res.pure_eq]
    refine ⟨_, rfl, ?_, ?_, ?_, ?_⟩
    · simp
    · simp only [← et]
      rw [List.length_append, List.length_singleton, max_eq_right (by omega)]
      push_cast
      apply tab_congr
      intro i _
      ring
    · intro h'
      simp at h'
      omega
    · intro _
      rw [markersOf_snoc f hle]
      exact ⟨rfl, rfl⟩

/-! ## The three sets of fractions -/

theorem quantileIncr_eq (p : K) : psqQuantileIncr p = tab 5 (quantileFractions p) := rfl

theorem quantileDes_eq (p : K) :
    psqQuantileDes p = tab 5 (fun i => 1 + (((5 : ℕ) : K) - 1) * quantileFractions p i) := by
  simp only [psqQuantileDes, tab, List.range, List.range.loop, List.map, quantileFractions]
  congr 1
  · ring
  congr 1
  · push_cast; ring
  congr 1
  · push_cast; ring
  congr 1
  · push_cast; ring
  congr 1
  push_cast; ring

theorem cumulIncr_eq (b : ℕ) : psqCumulIncr (K := K) b = tab (b + 1) (cellFractions b) := rfl

theorem cumulDes_eq {b : ℕ} (hb : 0 < b) :
    psqCumulDes (K := K) b
      = tab (b + 1) (fun i => 1 + (((b + 1 : ℕ) : K) - 1) * cellFractions b i) := by
  apply tab_congr
  intro i _
  have : (b : K) ≠ 0 := Nat.cast_ne_zero.2 (by omega)
  simp only [cellFractions]
  push_cast
  field_simp
  ring

theorem interleave_length (prev : K) (l : List K) : (interleave prev l).length = 2 * l.length := by
  induction l generalizing prev with
  | nil => rfl
  | cons a l ih => simp [interleave, ih]; omega

theorem interleave_get (prev : K) (l : List K) (k : ℕ) (hk : k < l.length) :
    (interleave prev l)[2 * k]? = some (1 / 2 * ((if k = 0 then prev else (l[k - 1]?).getD 1)
      + (l[k]?).getD 1)) ∧
    (interleave prev l)[2 * k + 1]? = some ((l[k]?).getD 1) := by
  induction l generalizing prev k with
  | nil => simp at hk
  | cons a l ih =>
    cases k with
    | zero => simp [interleave]
    | succ k =>
      have := ih a k (by simpa using hk)
      rw [show 2 * (k + 1) = 2 * k + 1 + 1 by ring]
      simp only [interleave, List.getElem?_cons_succ, this.1, this.2, Nat.add_sub_cancel]
      constructor
      · cases k with
        | zero => simp
        | succ k => simp
      · simp

theorem append_one_get (ps : List K) {k : ℕ} (hk : k < ps.length + 1) :
    ((ps ++ [1])[k]?).getD 1 = (ps[k]?).getD 1 := by
  rcases Nat.lt_or_ge k ps.length with h | h
  · rw [List.getElem?_append_left h]
  · rw [List.getElem?_append_right h, show k - ps.length = 0 by omega,
      List.getElem?_eq_none h]
    rfl

theorem extendedIncr_eq (ps : List K) :
    epsqIncr ps = tab (2 * ps.length + 3) (extendedFractions ps) := by
  have hlen : (epsqIncr ps).length = 2 * ps.length + 3 := by
    simp [epsqIncr, interleave_length]; ring
  apply List.ext_getElem?
  intro i
  rcases Nat.lt_or_ge i (2 * ps.length + 3) with hi | hi
  · rw [List.getElem?_eq_getElem (l := tab _ _) (by simpa using hi), tab_getElem]
    unfold epsqIncr extendedFractions principal
    cases i with
    | zero => simp
    | succ i =>
      rw [List.getElem?_cons_succ]
      obtain ⟨k, rfl | rfl⟩ : ∃ k, i = 2 * k ∨ i = 2 * k + 1 := ⟨i / 2, by omega⟩
      · have hk : k < (ps ++ [(1 : K)]).length := by simp; omega
        have hk' : k < ps.length + 1 := by omega
        rw [(interleave_get 0 (ps ++ [1]) k hk).1, if_neg (show ¬ (2 * k + 1) % 2 = 0 by omega),
          show (2 * k + 1) / 2 = k by omega, append_one_get ps hk', if_neg (show k + 1 ≠ 0 by omega),
          Nat.add_sub_cancel]
        by_cases h0 : k = 0
        · rw [if_pos h0, if_pos h0]
          congr 1; ring
        · rw [if_neg h0, if_neg h0, append_one_get ps (by omega)]
          congr 1; ring
      · have hk : k < (ps ++ [(1 : K)]).length := by simp; omega
        have hk' : k < ps.length + 1 := by omega
        rw [(interleave_get 0 (ps ++ [1]) k hk).2, if_pos (by omega),
          show (2 * k + 1 + 1) / 2 = k + 1 by omega, if_neg (by omega), append_one_get ps hk',
          Nat.add_sub_cancel]
  · rw [List.getElem?_eq_none (by omega), List.getElem?_eq_none (by simpa using hi)]

theorem extendedDes_eq (ps : List K) :
    epsqDes ps = tab (2 * ps.length + 3)
      (fun i => 1 + (((2 * ps.length + 3 : ℕ) : K) - 1) * extendedFractions ps i) := by
  unfold epsqDes
  rw [extendedIncr_eq]
  unfold tab
  rw [List.map_map]
  apply List.map_congr_left
  intro i _
  simp only [Function.comp]
  push_cast
  ring

end Acc
