import Verif.Spec.PSquare
import Mathlib.Algebra.Order.Field.Basic
import Mathlib.Tactic.Ring
import Mathlib.Tactic.Linarith
import Mathlib.Tactic.FieldSimp
import Mathlib.Data.List.Sort
import Mathlib.Data.List.Induction

/-! # Facts about the P-square algorithm itself -/

set_option linter.unusedSectionVars false

namespace Acc.Spec

variable {K : Type} [Field K] [LinearOrder K] [IsStrictOrderedRing K]

/-- Heights in order, positions strictly in order. -/
structure Markers.Ord (M : Markers K) (m : ℕ) : Prop where
  q : ∀ i, i + 1 < m → M.q i ≤ M.q (i + 1)
  n : ∀ i, i + 1 < m → M.n i < M.n (i + 1)

theorem Markers.Ord.q_mono {M : Markers K} {m : ℕ} (h : M.Ord m) {i j : ℕ} (hij : i ≤ j)
    (hj : j < m) : M.q i ≤ M.q j := by
  induction j, hij using Nat.le_induction with
  | base => exact le_refl _
  | succ j hij ih => exact le_trans (ih (by omega)) (h.q j hj)

theorem Markers.Ord.n_mono {M : Markers K} {m : ℕ} (h : M.Ord m) {i j : ℕ} (hij : i < j)
    (hj : j < m) : M.n i < M.n j := by
  induction j, Nat.succ_le_of_lt hij using Nat.le_induction with
  | base => exact h.n i hj
  | succ j hij ih => exact lt_trans (ih (by omega) (by omega)) (h.n j hj)

theorem move_ord {M : Markers K} {m i j : ℕ} {s : K} (h : M.Ord m) (hi : 1 ≤ i) (hm : i + 1 < m)
    (hs : (j = i + 1 ∧ s = 1 ∧ 1 < M.n (i + 1) - M.n i) ∨
      (j = i - 1 ∧ s = -1 ∧ M.n (i - 1) - M.n i < -1)) :
    (move M i j s).Ord m := by
  obtain ⟨k, rfl⟩ : ∃ k, i = k + 1 := ⟨i - 1, by omega⟩
  rw [Nat.add_sub_cancel] at hs
  have hq1 := h.q k (by omega)
  have hq2 := h.q (k + 1) hm
  have hn1 := h.n k (by omega)
  have hn2 := h.n (k + 1) hm
  have hlin : M.q k ≤ linearTo M (k + 1) j s ∧ linearTo M (k + 1) j s ≤ M.q (k + 1 + 1) := by
    unfold linearTo
    rcases hs with ⟨hj, rfl, hd⟩ | ⟨hj, rfl, hd⟩ <;> rw [hj]
    · have h0 : 0 ≤ (M.q (k + 1 + 1) - M.q (k + 1)) / (M.n (k + 1 + 1) - M.n (k + 1)) :=
        div_nonneg (by linarith) (by linarith)
      have h1 : (M.q (k + 1 + 1) - M.q (k + 1)) / (M.n (k + 1 + 1) - M.n (k + 1))
          ≤ M.q (k + 1 + 1) - M.q (k + 1) := div_le_self (by linarith) hd.le
      constructor <;> linarith
    · have e : (M.q k - M.q (k + 1)) / (M.n k - M.n (k + 1))
          = (M.q (k + 1) - M.q k) / (M.n (k + 1) - M.n k) := by
        rw [← neg_sub (M.q (k + 1)), ← neg_sub (M.n (k + 1)), neg_div_neg_eq]
      rw [e]
      have h0 : 0 ≤ (M.q (k + 1) - M.q k) / (M.n (k + 1) - M.n k) :=
        div_nonneg (by linarith) (by linarith)
      have h1 : (M.q (k + 1) - M.q k) / (M.n (k + 1) - M.n k)
          ≤ M.q (k + 1) - M.q k := div_le_self (by linarith) (by linarith)
      constructor <;> linarith
  have hnew : M.q k ≤ (move M (k + 1) j s).q (k + 1) ∧
      (move M (k + 1) j s).q (k + 1) ≤ M.q (k + 1 + 1) := by
    simp only [move, Function.update_self, Nat.add_sub_cancel]
    split
    · rename_i hp; exact ⟨hp.1.le, hp.2.le⟩
    · exact hlin
  have hnn : M.n k < (move M (k + 1) j s).n (k + 1) ∧
      (move M (k + 1) j s).n (k + 1) < M.n (k + 1 + 1) := by
    simp only [move, Function.update_self]
    rcases hs with ⟨rfl, rfl, hd⟩ | ⟨rfl, rfl, hd⟩ <;> constructor <;> linarith
  have hqo : ∀ l, l ≠ k + 1 → (move M (k + 1) j s).q l = M.q l := by
    intro l hl; simp [move, hl]
  have hno : ∀ l, l ≠ k + 1 → (move M (k + 1) j s).n l = M.n l := by
    intro l hl; simp [move, hl]
  constructor
  · intro l hl
    rcases eq_or_ne l k with rfl | h1
    · rw [hqo l (by omega)]; exact hnew.1
    · rcases eq_or_ne l (k + 1) with rfl | h2
      · rw [hqo (k + 1 + 1) (by omega)]; exact hnew.2
      · rw [hqo l h2, hqo (l + 1) (by omega)]; exact h.q l hl
  · intro l hl
    rcases eq_or_ne l k with rfl | h1
    · rw [hno l (by omega)]; exact hnn.1
    · rcases eq_or_ne l (k + 1) with rfl | h2
      · rw [hno (k + 1 + 1) (by omega)]; exact hnn.2
      · rw [hno l h2, hno (l + 1) (by omega)]; exact h.n l hl

theorem adjust_ord {M : Markers K} {m i : ℕ} (t : ℕ → K) (h : M.Ord m) (hi : 1 ≤ i)
    (hm : i + 1 < m) : (adjust t M i).Ord m := by
  unfold adjust
  split
  · rename_i hc; exact move_ord h hi hm (Or.inl ⟨rfl, rfl, hc.2⟩)
  · split
    · rename_i hc; exact move_ord h hi hm (Or.inr ⟨rfl, rfl, hc.2⟩)
    · exact h

/-- Adjusting an inner marker leaves the others alone. -/
theorem adjust_other (t : ℕ → K) (M : Markers K) {i l : ℕ} (hl : l ≠ i) :
    (adjust t M i).q l = M.q l ∧ (adjust t M i).n l = M.n l := by
  unfold adjust move
  split
  · simp [hl]
  · split <;> simp [hl]

theorem adjust_int (t : ℕ → K) {M : Markers K} (h : ∀ l, ∃ z : ℤ, M.n l = z) (i : ℕ) :
    ∀ l, ∃ z : ℤ, (adjust t M i).n l = z := by
  intro l
  rcases eq_or_ne l i with rfl | hl
  · obtain ⟨z, hz⟩ := h l
    unfold adjust move
    split
    · exact ⟨z + 1, by simp [hz]⟩
    · split
      · exact ⟨z - 1, by simp [hz, sub_eq_add_neg]⟩
      · exact ⟨z, hz⟩
  · rw [(adjust_other t M hl).2]; exact h l

/-- Induction over the adjustment loop. -/
theorem adjustFold_ind (P : Markers K → Prop) (t : ℕ → K) (m : ℕ)
    (hstep : ∀ M i, 1 ≤ i → i + 1 < m → P M → P (adjust t M i)) (l : List ℕ)
    (hl : ∀ i ∈ l, 1 ≤ i ∧ i + 1 < m) (M : Markers K) (h : P M) :
    P (l.foldl (adjust t) M) := by
  induction l generalizing M with
  | nil => exact h
  | cons i l ih =>
    exact ih (fun j hj => hl j (by simp [hj])) _
      (hstep M i (hl i (by simp)).1 (hl i (by simp)).2 h)

theorem mem_inner {m i : ℕ} (h : i ∈ List.range' 1 (m - 2)) : 1 ≤ i ∧ i + 1 < m := by
  rw [List.mem_range'_1] at h; omega

theorem adjustAll_ord {M : Markers K} {m : ℕ} (t : ℕ → K) (h : M.Ord m) :
    (adjustAll m t M).Ord m :=
  adjustFold_ind (fun M => M.Ord m) t m (fun _ _ hi hm h => adjust_ord t h hi hm) _
    (fun _ hi => mem_inner hi) M h

theorem adjustAll_outer (t : ℕ → K) (M : Markers K) (m l : ℕ) (hl : l = 0 ∨ m - 1 ≤ l) :
    (adjustAll m t M).q l = M.q l ∧ (adjustAll m t M).n l = M.n l :=
  adjustFold_ind (fun M' => M'.q l = M.q l ∧ M'.n l = M.n l) t m
    (fun M' i hi hm h => by
      have := adjust_other t M' (i := i) (l := l) (by omega)
      exact ⟨this.1.trans h.1, this.2.trans h.2⟩) _
    (fun _ hi => mem_inner hi) M ⟨rfl, rfl⟩

theorem adjustAll_int (t : ℕ → K) {M : Markers K} (m : ℕ) (h : ∀ l, ∃ z : ℤ, M.n l = z) :
    ∀ l, ∃ z : ℤ, (adjustAll m t M).n l = z :=
  adjustFold_ind (fun M => ∀ l, ∃ z : ℤ, M.n l = (z : K)) t m
    (fun _ i _ _ h => adjust_int t h i) _ (fun _ hi => mem_inner hi) M h

theorem cellOf_pos (m : ℕ) (q : ℕ → K) (x : K) : 1 ≤ cellOf m q x := le_max_left _ _

theorem cellOf_le {m : ℕ} (hm : 2 ≤ m) (q : ℕ → K) (x : K) : cellOf m q x ≤ m - 1 := by
  unfold cellOf; omega

/-- With ordered heights the count in `cellOf` is the position of the first greater height. -/
theorem countP_le_eq {M : Markers K} {m : ℕ} (h : M.Ord m) (x : K) {k : ℕ} (hk : k ≤ m)
    (h1 : ∀ i < k, M.q i ≤ x) (h2 : k < m → x < M.q k) :
    (List.range m).countP (fun i => decide (M.q i ≤ x)) = k := by
  have e : List.range m = List.range k ++ List.range' k (m - k) := by
    rw [List.range_eq_range', List.range_eq_range',
      show List.range' k (m - k) = List.range' (0 + 1 * k) (m - k) by simp, List.range'_append]
    congr 1; omega
  rw [e, List.countP_append, List.countP_eq_length.2, List.countP_eq_zero.2]
  · simp
  · intro i hi
    rw [List.mem_range'_1] at hi
    have := h2 (by omega)
    have := lt_of_lt_of_le this (h.q_mono hi.1 (by omega))
    simpa using this
  · intro i hi
    simpa using h1 i (List.mem_range.1 hi)

theorem observe_ord {M : Markers K} {m : ℕ} (hm : 2 ≤ m) (x : K) {w : K} (hw : 0 < w)
    (h : M.Ord m) (h0 : 0 < M.n 0) : (observe m x w M).Ord m := by
  constructor
  · intro i hi
    have hq := h.q i hi
    simp only [observe]
    have e1 : i + 1 ≠ 0 := by omega
    have e2 : i ≠ m - 1 := by omega
    rw [if_neg e1, if_neg e2]
    by_cases hi0 : i = 0
    · subst hi0
      simp only [if_true]
      split
      · exact le_trans (min_le_left _ _) (le_trans hq (le_max_left _ _))
      · exact le_trans (min_le_left _ _) hq
    · rw [if_neg hi0]
      split
      · exact le_trans hq (le_max_left _ _)
      · exact hq
  · intro i hi
    have hn := h.n i hi
    simp only [observe]
    rw [if_neg (show i + 1 ≠ 0 by omega)]
    by_cases hi0 : i = 0
    · subst hi0
      simp only [if_true]
      by_cases hx : x < M.q 0
      · rw [if_pos hx]
        have hc : (List.range m).countP (fun i => decide (M.q i ≤ x)) = 0 :=
          countP_le_eq h x (by omega) (by omega) (fun _ => hx)
        have : cellOf m M.q x = 1 := by unfold cellOf; omega
        rw [this, if_pos (by omega)]
        linarith
      · rw [if_neg hx]
        split <;> linarith
    · rw [if_neg hi0]
      split
      · rw [if_pos (by omega)]; linarith
      · split <;> linarith

/-- What the algorithm maintains after the samples `ps` (`ps` includes the start). -/
structure Markers.Good (M : Markers K) (m : ℕ) (ps : List (K × K)) : Prop extends M.Ord m where
  n0 : 0 < M.n 0
  last : M.n (m - 1) = pTotal ps
  min_mem : M.q 0 ∈ ps.map Prod.fst
  max_mem : M.q (m - 1) ∈ ps.map Prod.fst
  min_le : ∀ x ∈ ps.map Prod.fst, M.q 0 ≤ x
  le_max : ∀ x ∈ ps.map Prod.fst, x ≤ M.q (m - 1)

theorem pStep_good {M : Markers K} {m : ℕ} (hm : 2 ≤ m) (f : ℕ → K) {ps : List (K × K)}
    {xw : K × K} (hw : 0 < xw.2) (h : M.Good m ps) (W : K) :
    (pStep m f W M xw).Good m (ps ++ [xw]) := by
  have hO := observe_ord hm xw.1 hw h.toOrd h.n0
  unfold pStep
  simp only
  set t : ℕ → K := fun i => (observe m xw.1 xw.2 M).n 0 + (W - (observe m xw.1 xw.2 M).n 0) * f i
  have o0 := adjustAll_outer t (observe m xw.1 xw.2 M) m 0 (Or.inl rfl)
  have ol := adjustAll_outer t (observe m xw.1 xw.2 M) m (m - 1) (Or.inr le_rfl)
  have hm1 : m - 1 ≠ 0 := by omega
  have q0 : (adjustAll m t (observe m xw.1 xw.2 M)).q 0 = min (M.q 0) xw.1 := by
    rw [o0.1]; simp [observe]
  have ql : (adjustAll m t (observe m xw.1 xw.2 M)).q (m - 1) = max (M.q (m - 1)) xw.1 := by
    rw [ol.1]; simp [observe, hm1]
  refine ⟨adjustAll_ord t hO, ?_, ?_, ?_, ?_, ?_, ?_⟩
  · rw [o0.2]
    simp only [observe, if_true]
    split
    · exact hw
    · exact h.n0
  · rw [ol.2]
    simp only [observe, if_neg hm1]
    rw [if_pos (cellOf_le hm _ _), h.last]
    simp [pTotal]
  · rw [q0, List.map_append, List.mem_append]
    rcases min_choice (M.q 0) xw.1 with e | e
    · rw [e]; exact Or.inl h.min_mem
    · rw [e]; exact Or.inr (by simp)
  · rw [ql, List.map_append, List.mem_append]
    rcases max_choice (M.q (m - 1)) xw.1 with e | e
    · rw [e]; exact Or.inl h.max_mem
    · rw [e]; exact Or.inr (by simp)
  · intro x hx
    rw [q0]
    rw [List.map_append, List.mem_append] at hx
    rcases hx with hx | hx
    · exact le_trans (min_le_left _ _) (h.min_le x hx)
    · simp at hx; rw [hx]; exact min_le_right _ _
  · intro x hx
    rw [ql]
    rw [List.map_append, List.mem_append] at hx
    rcases hx with hx | hx
    · exact le_trans (h.le_max x hx) (le_max_left _ _)
    · simp at hx; rw [hx]; exact le_max_right _ _

theorem pTotal_append (l r : List (K × K)) : pTotal (l ++ r) = pTotal l + pTotal r := by
  simp [pTotal]

theorem pStart_q (l : List (K × K)) {i : ℕ} (h : i < l.length) : (pStart l).q i = l[i].1 := by
  simp [pStart, h]

theorem pStart_good {l : List (K × K)} {m : ℕ} (hm : 2 ≤ m) (hl : l.length = m)
    (hs : l.Pairwise (fun a b => a.1 ≤ b.1)) (hw : ∀ p ∈ l, 0 < p.2) : (pStart l).Good m l := by
  have hpw := List.pairwise_iff_getElem.mp hs
  have hmono : ∀ i j (hi : i < l.length) (hj : j < l.length), i ≤ j → l[i].1 ≤ l[j].1 := by
    intro i j hi hj hij
    rcases Nat.lt_or_eq_of_le hij with h | rfl
    · exact hpw i j hi hj h
    · exact le_refl _
  refine ⟨⟨?_, ?_⟩, ?_, ?_, ?_, ?_, ?_, ?_⟩
  · intro i hi
    rw [pStart_q l (by omega), pStart_q l (by omega)]
    exact hmono _ _ _ _ (by omega)
  · intro i hi
    have hi' : i + 1 < l.length := by omega
    simp only [pStart]
    rw [List.take_add_one (i := i + 1), List.getElem?_eq_getElem hi', pTotal_append]
    have := hw l[i + 1] (List.getElem_mem _)
    simp [pTotal, this]
  · have h0 : 0 < l.length := by omega
    have := hw l[0] (List.getElem_mem _)
    simp only [pStart]
    rw [List.take_add_one (i := 0), List.getElem?_eq_getElem h0]
    simpa [pTotal] using this
  · simp only [pStart]
    rw [show m - 1 + 1 = l.length by omega, List.take_length]
  · rw [pStart_q l (by omega)]
    exact List.mem_map_of_mem (List.getElem_mem _)
  · rw [pStart_q l (by omega)]
    exact List.mem_map_of_mem (List.getElem_mem _)
  · intro x hx
    obtain ⟨p, hp, rfl⟩ := List.mem_map.mp hx
    obtain ⟨j, hj, rfl⟩ := List.mem_iff_getElem.mp hp
    rw [pStart_q l (by omega)]
    exact hmono _ _ _ _ (by omega)
  · intro x hx
    obtain ⟨p, hp, rfl⟩ := List.mem_map.mp hx
    obtain ⟨j, hj, rfl⟩ := List.mem_iff_getElem.mp hp
    rw [pStart_q l (by omega)]
    exact hmono _ _ _ _ (by omega)

/-- The fold of `pRun`, with the total weight made explicit. -/
theorem pFold_snoc (m : ℕ) (f : ℕ → K) (rest : List (K × K)) (s : K × Markers K) :
    (rest.foldl (fun (s : K × Markers K) xw => (s.1 + xw.2, pStep m f (s.1 + xw.2) s.2 xw)) s).1
      = s.1 + pTotal rest := by
  induction rest generalizing s with
  | nil => simp [pTotal]
  | cons a rest ih =>
    rw [List.foldl_cons, ih]
    simp [pTotal, add_assoc]

theorem pRun_nil (m : ℕ) (f : ℕ → K) (l : List (K × K)) : pRun m f l [] = pStart l := rfl

theorem pRun_snoc (m : ℕ) (f : ℕ → K) (l rest : List (K × K)) (xw : K × K) :
    pRun m f l (rest ++ [xw])
      = pStep m f (pTotal (l ++ rest ++ [xw])) (pRun m f l rest) xw := by
  unfold pRun
  rw [List.foldl_append]
  simp only [List.foldl_cons, List.foldl_nil]
  rw [pFold_snoc m f]
  simp [pTotal, add_assoc]

theorem pRun_good {l rest : List (K × K)} {m : ℕ} (hm : 2 ≤ m) (f : ℕ → K) (hl : l.length = m)
    (hs : l.Pairwise (fun a b => a.1 ≤ b.1)) (hw : ∀ p ∈ l ++ rest, 0 < p.2) :
    (pRun m f l rest).Good m (l ++ rest) := by
  induction rest using List.reverseRecOn with
  | nil => rw [List.append_nil, pRun_nil]; exact pStart_good hm hl hs (by simpa using hw)
  | append_singleton rest xw ih =>
    rw [pRun_snoc, ← List.append_assoc]
    refine pStep_good hm f (hw xw (by simp)) (ih fun p hp => hw p ?_) _
    rw [List.mem_append] at hp ⊢
    rcases hp with hp | hp
    · exact Or.inl hp
    · exact Or.inr (by simp [hp])

/-- With unit weights the first position is 1 and all positions are integers. -/
theorem pRun_unit {l rest : List (K × K)} {m : ℕ} (f : ℕ → K) (h0 : l ≠ [])
    (hw : ∀ p ∈ l ++ rest, p.2 = 1) :
    (pRun m f l rest).n 0 = 1 ∧ ∀ i, ∃ z : ℤ, (pRun m f l rest).n i = z := by
  induction rest using List.reverseRecOn with
  | nil =>
    rw [pRun_nil]
    constructor
    · obtain ⟨a, l, rfl⟩ := List.exists_cons_of_ne_nil h0
      simp [pStart, pTotal, hw a]
    · intro i
      refine ⟨((l.take (i + 1)).length : ℤ), ?_⟩
      simp only [pStart, pTotal]
      have : (l.take (i + 1)).map Prod.snd = (l.take (i + 1)).map fun _ => (1 : K) := by
        apply List.map_congr_left
        intro p hp
        exact hw p (by simp [List.mem_of_mem_take hp])
      rw [this]
      simp
  | append_singleton rest xw ih =>
    have ih := ih fun p hp => hw p (by
      rw [List.mem_append] at hp ⊢
      rcases hp with hp | hp
      · exact Or.inl hp
      · exact Or.inr (by simp [hp]))
    have hx := hw xw (by simp)
    have hobs : ∀ i, ∃ z : ℤ, (observe m xw.1 xw.2 (pRun m f l rest)).n i = z := by
      intro i
      obtain ⟨z, hz⟩ := ih.2 i
      simp only [observe, hx]
      split
      · split
        · exact ⟨1, by simp⟩
        · exact ih.2 0
      · split
        · exact ⟨z + 1, by simp [hz]⟩
        · exact ⟨z, hz⟩
    rw [pRun_snoc]
    unfold pStep
    simp only
    refine ⟨?_, adjustAll_int _ m hobs⟩
    rw [(adjustAll_outer _ _ m 0 (Or.inl rfl)).2]
    simp only [observe, if_true, hx, ih.1]
    split <;> rfl

/-! ## Affine images -/

/-- The image of the markers under `x ↦ a x + b`. -/
def Markers.image (a b : K) (M : Markers K) : Markers K := ⟨fun i => a * M.q i + b, M.n⟩

theorem affine_lt {a b : K} (ha : 0 < a) (x y : K) : a * x + b < a * y + b ↔ x < y := by
  rw [add_lt_add_iff_right, mul_lt_mul_iff_right₀ ha]

theorem affine_le {a b : K} (ha : 0 < a) (x y : K) : a * x + b ≤ a * y + b ↔ x ≤ y := by
  rw [add_le_add_iff_right, mul_le_mul_iff_right₀ ha]

theorem observe_image {a b : K} (ha : 0 < a) (m : ℕ) (x w : K) (M : Markers K) :
    observe m (a * x + b) w (M.image a b) = (observe m x w M).image a b := by
  have hc : cellOf m (M.image a b).q (a * x + b) = cellOf m M.q x := by
    simp only [cellOf, Markers.image, affine_le ha]
  have mono : Monotone fun y : K => a * y + b := fun y z h => (affine_le ha y z).2 h
  unfold observe
  rw [hc]
  simp only [Markers.image, affine_lt ha]
  congr 1
  funext i
  split
  · exact (mono.map_min (a := M.q 0) (b := x)).symm
  · split
    · exact (mono.map_max (a := M.q i) (b := x)).symm
    · rfl

theorem parabolic_image (a b : K) (M : Markers K) (i : ℕ) (s : K) :
    parabolic (M.image a b) i s = a * parabolic M i s + b := by
  simp only [parabolic, Markers.image]
  rw [show a * M.q (i + 1) + b - (a * M.q i + b) = a * (M.q (i + 1) - M.q i) by ring,
    show a * M.q i + b - (a * M.q (i - 1) + b) = a * (M.q i - M.q (i - 1)) by ring,
    mul_div_assoc, mul_div_assoc]
  ring

theorem linearTo_image (a b : K) (M : Markers K) (i j : ℕ) (s : K) :
    linearTo (M.image a b) i j s = a * linearTo M i j s + b := by
  simp only [linearTo, Markers.image]
  rw [show a * M.q j + b - (a * M.q i + b) = a * (M.q j - M.q i) by ring, mul_div_assoc]
  ring

theorem move_image {a b : K} (ha : 0 < a) (M : Markers K) (i j : ℕ) (s : K) :
    move (M.image a b) i j s = (move M i j s).image a b := by
  unfold move
  rw [parabolic_image, linearTo_image]
  simp only [Markers.image, affine_lt ha]
  congr 1
  funext l
  by_cases h : l = i
  · subst h
    simp only [Function.update_self]
    split <;> rfl
  · simp [Function.update_of_ne h]

theorem adjust_image {a b : K} (ha : 0 < a) (t : ℕ → K) (M : Markers K) (i : ℕ) :
    adjust t (M.image a b) i = (adjust t M i).image a b := by
  unfold adjust
  rw [move_image ha, move_image ha]
  show (if 1 ≤ t i - M.n i ∧ 1 < M.n (i + 1) - M.n i then _ else
    if t i - M.n i ≤ -1 ∧ M.n (i - 1) - M.n i < -1 then _ else _) = _
  split
  · rfl
  · split <;> rfl

theorem adjustAll_image {a b : K} (ha : 0 < a) (m : ℕ) (t : ℕ → K) (M : Markers K) :
    adjustAll m t (M.image a b) = (adjustAll m t M).image a b := by
  unfold adjustAll
  generalize List.range' 1 (m - 2) = l
  induction l generalizing M with
  | nil => rfl
  | cons i l ih => rw [List.foldl_cons, List.foldl_cons, adjust_image ha, ih]

theorem pStep_image {a b : K} (ha : 0 < a) (m : ℕ) (f : ℕ → K) (W : K) (M : Markers K)
    (xw : K × K) :
    pStep m f W (M.image a b) (a * xw.1 + b, xw.2) = (pStep m f W M xw).image a b := by
  unfold pStep
  simp only [observe_image ha, adjustAll_image ha]
  rfl

/-- Only the heights of the markers `< m` matter; the image of the start. -/
theorem pStart_image (a b : K) (l : List (K × K)) :
    (∀ i < l.length, (pStart (l.map fun p => (a * p.1 + b, p.2))).q i
      = ((pStart l).image a b).q i) ∧
    (pStart (l.map fun p => (a * p.1 + b, p.2))).n = (pStart l).n := by
  constructor
  · intro i hi
    rw [pStart_q _ (by simpa using hi)]
    simp only [Markers.image, pStart_q l hi]
    simp
  · funext i
    simp only [pStart, pTotal]
    rw [← List.map_take, List.map_map]
    rfl

/-! ## Only the markers below `m` matter -/

/-- Two marker states with the same `m` markers. -/
def Agree (m : ℕ) (M N : Markers K) : Prop := ∀ i < m, M.q i = N.q i ∧ M.n i = N.n i

theorem Agree.refl (m : ℕ) (M : Markers K) : Agree m M M := fun _ _ => ⟨rfl, rfl⟩

theorem Agree.trans {m : ℕ} {M N P : Markers K} (h : Agree m M N) (h' : Agree m N P) :
    Agree m M P := fun i hi => ⟨(h i hi).1.trans (h' i hi).1, (h i hi).2.trans (h' i hi).2⟩

theorem Agree.observe {m : ℕ} (hm : 0 < m) {M N : Markers K} (h : Agree m M N) (x w : K) :
    Agree m (observe m x w M) (observe m x w N) := by
  have hc : cellOf m M.q x = cellOf m N.q x := by
    unfold cellOf
    congr 2
    apply List.countP_congr
    intro i hi
    rw [(h i (List.mem_range.1 hi)).1]
  intro i hi
  simp only [Spec.observe, hc, (h i hi).1, (h i hi).2, (h 0 hm).1, (h 0 hm).2, and_self]

theorem Agree.move {m i j : ℕ} (hi : i + 1 < m) (hj : j < m) {M N : Markers K} (h : Agree m M N)
    (s : K) : Agree m (move M i j s) (move N i j s) := by
  have h1 := h i (by omega)
  have h2 := h (i + 1) hi
  have h3 := h (i - 1) (by omega)
  have h4 := h j hj
  intro l hl
  unfold Spec.move parabolic linearTo
  rw [h1.1, h1.2, h2.1, h2.2, h3.1, h3.2, h4.1, h4.2]
  by_cases hli : l = i
  · subst hli; simp
  · simp [hli, h l hl]

theorem Agree.adjust {m i : ℕ} (hi : i + 1 < m) {M N : Markers K} (h : Agree m M N)
    {t t' : ℕ → K} (ht : t i = t' i) : Agree m (adjust t M i) (adjust t' N i) := by
  unfold Spec.adjust
  rw [ht, (h i (by omega)).2, (h (i + 1) hi).2, (h (i - 1) (by omega)).2]
  split
  · exact h.move hi hi 1
  · split
    · exact h.move hi (by omega) (-1)
    · exact h

theorem Agree.adjustAll {m : ℕ} {M N : Markers K} (h : Agree m M N)
    {t t' : ℕ → K} (ht : ∀ i < m, t i = t' i) : Agree m (adjustAll m t M) (adjustAll m t' N) := by
  unfold Spec.adjustAll
  have hl : ∀ i ∈ List.range' 1 (m - 2), 1 ≤ i ∧ i + 1 < m := fun i hi => mem_inner hi
  revert hl h
  generalize List.range' 1 (m - 2) = l
  intro h hl
  induction l generalizing M N with
  | nil => exact h
  | cons i l ih =>
    exact ih (h.adjust (hl i (by simp)).2 (ht i (by have := hl i (by simp); omega)))
      (fun j hj => hl j (by simp [hj]))

theorem Agree.pStep {m : ℕ} (hm : 0 < m) {M N : Markers K} (h : Agree m M N) {f g : ℕ → K}
    (hf : ∀ i < m, f i = g i) (W : K) (xw : K × K) :
    Agree m (pStep m f W M xw) (pStep m g W N xw) := by
  have ho := h.observe hm xw.1 xw.2
  apply ho.adjustAll
  intro i hi
  simp only [(ho 0 hm).2, hf i hi]

theorem pRun_agree {m : ℕ} (hm : 0 < m) {f g : ℕ → K} (hf : ∀ i < m, f i = g i)
    (l rest : List (K × K)) : Agree m (pRun m f l rest) (pRun m g l rest) := by
  induction rest using List.reverseRecOn with
  | nil => exact Agree.refl _ _
  | append_singleton rest xw ih =>
    rw [pRun_snoc, pRun_snoc]
    exact ih.pStep hm hf _ _

/-- Affine equivariance of the whole algorithm. -/
theorem pRun_image {a b : K} (ha : 0 < a) {m : ℕ} (hm : 0 < m) (f : ℕ → K) {l : List (K × K)}
    (hl : l.length = m) (rest : List (K × K)) :
    Agree m (pRun m f (l.map fun p => (a * p.1 + b, p.2)) (rest.map fun p => (a * p.1 + b, p.2)))
      ((pRun m f l rest).image a b) := by
  induction rest using List.reverseRecOn with
  | nil =>
    intro i hi
    have := pStart_image a b l
    exact ⟨this.1 i (by omega), congrFun this.2 i⟩
  | append_singleton rest xw ih =>
    rw [List.map_append, List.map_singleton, pRun_snoc, pRun_snoc, ← pStep_image ha]
    have e : pTotal (l.map (fun p => (a * p.1 + b, p.2)) ++ rest.map (fun p => (a * p.1 + b, p.2))
        ++ [(a * xw.1 + b, xw.2)]) = pTotal (l ++ rest ++ [xw]) := by
      simp [pTotal, Function.comp_def]
    rw [e]
    exact ih.pStep hm (fun _ _ => rfl) _ _

end Acc.Spec
