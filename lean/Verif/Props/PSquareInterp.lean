import Verif.Props.PSquare
import Verif.Spec.Interpolation

/-!
# Interpolated quantiles from extended P-square (C25, share of C56)
-/

set_option linter.unusedSectionVars false

namespace Acc

variable {K : Type} [Field K] [LinearOrder K] [IsStrictOrderedRing K]

open Spec

theorem lowerBound_eq {l : List K} (hl : l.Pairwise (· < ·)) {p : K} {k : ℕ} (hk : k < l.length)
    (h1 : p ≤ l[k]) (h2 : ∀ j (hj : j < k), l[j] < p) : lowerBound l p = .val k := by
  have e : l.findIdx (fun e => decide (p ≤ e)) = k := by
    rw [List.findIdx_eq hk]
    refine ⟨by simpa using h1, fun j hj => by simpa using h2 j hj⟩
  unfold lowerBound
  simp only [e]
  rw [if_pos]
  rw [List.all_eq_true]
  intro x hx
  obtain ⟨i, hi, rfl⟩ := List.mem_iff_getElem.mp hx
  rw [List.getElem_drop]
  rw [List.length_drop] at hi
  rcases Nat.eq_zero_or_pos i with rfl | hpos
  · simpa using h1
  · have := List.pairwise_iff_getElem.mp hl k (k + i) hk (by omega) (by omega)
    simpa using h1.trans this.le

theorem lowerBound_end {l : List K} {p : K} (h : ∀ x ∈ l, x < p) :
    lowerBound l p = .val l.length := by
  have e : l.findIdx (fun e => decide (p ≤ e)) = l.length := by
    apply List.findIdx_eq_length.2
    intro x hx
    simpa using h x hx
  unfold lowerBound
  simp [e]

theorem getBack_one {α : Type} {l : List α} {k : ℕ} (h0 : 0 < k) (hk : k ≤ l.length) :
    getBack l k 1 = .val (l[k - 1]'(by omega)) := by
  rw [getBack, if_pos (by omega), getAt_lt (by omega)]

theorem mono_getElem {l : List K} (hl : l.Pairwise (· < ·)) {i j : ℕ} (hi : i < l.length)
    (hj : j < l.length) (hij : i ≤ j) : l[i] ≤ l[j] := by
  rcases Nat.lt_or_eq_of_le hij with h | rfl
  · exact (List.pairwise_iff_getElem.mp hl i j hi hj h).le
  · exact le_refl _

/-- **C25** Outside the range of the probabilities: NaN, or an exception if the type has no NaN. -/
theorem C25_out_of_range (kind : Interp) (nan : Bool) {ps : List K} (hs : List K)
    (hp : ps.Pairwise (· < ·)) (h0 : 0 < ps.length) {p : K}
    (h : p < ps[0] ∨ ps[ps.length - 1] < p) :
    epsqQuantile kind nan ps hs p = if nan then .nonfinite else .thrown := by
  have hlb : ∃ k, lowerBound ps p = .val k := by
    rcases h with h | h
    · exact ⟨0, lowerBound_eq hp h0 h.le (by omega)⟩
    · refine ⟨ps.length, lowerBound_end fun x hx => ?_⟩
      obtain ⟨i, hi, rfl⟩ := List.mem_iff_getElem.mp hx
      exact lt_of_le_of_lt (mono_getElem hp hi _ (by omega)) h
  obtain ⟨k, hk⟩ := hlb
  unfold epsqQuantile
  rw [hk, Res.val_bind, getAt_lt h0, Res.val_bind, getBack_one h0 le_rfl, Res.val_bind, if_pos h]

/-- **C25** At one of the given probabilities both variants return the stored estimate. -/
theorem C25_exact (kind : Interp) (nan : Bool) {ps hs : List K} (hp : ps.Pairwise (· < ·))
    (hl : hs.length = ps.length) {k : ℕ} (hk : k < ps.length) :
    epsqQuantile kind nan ps hs ps[k] = .val (hs[k]'(by omega)) := by
  have h0 : 0 < ps.length := by omega
  have hlb : lowerBound ps ps[k] = .val k :=
    lowerBound_eq hp hk le_rfl fun j hj => List.pairwise_iff_getElem.mp hp j k (by omega) hk hj
  unfold epsqQuantile
  rw [hlb, Res.val_bind, getAt_lt h0, Res.val_bind, getBack_one h0 le_rfl, Res.val_bind, if_neg,
    getAt_lt hk, Res.val_bind, if_pos rfl, getAt_lt]
  rintro (h | h)
  · exact absurd (mono_getElem hp h0 hk (by omega)) (not_le.2 h)
  · exact absurd (mono_getElem hp hk (show ps.length - 1 < ps.length by omega) (by omega))
      (not_le.2 h)

/-- The common beginning of both interpolations. -/
theorem epsqQuantile_between {ps : List K} (hp : ps.Pairwise (· < ·)) {k : ℕ}
    (hk : k + 1 < ps.length) {p : K} (h1 : ps[k] < p) (h2 : p < ps[k + 1]) :
    lowerBound ps p = .val (k + 1) ∧ ¬ (p < ps[0] ∨ ps[ps.length - 1] < p) := by
  constructor
  · apply lowerBound_eq hp hk h2.le
    intro j hj
    exact lt_of_le_of_lt (mono_getElem hp (by omega) (by omega) (by omega)) h1
  · rintro (h | h)
    · have := mono_getElem hp (i := 0) (j := k) (by omega) (by omega) (by omega)
      exact absurd (lt_trans h1 h) (not_lt.2 this)
    · have := mono_getElem hp (i := k + 1) (j := ps.length - 1) hk (by omega) (by omega)
      exact absurd (lt_trans h h2) (not_lt.2 this)

/-- **C25** Linear variant, between two neighbouring probabilities: the straight line through the two
neighbouring estimates. -/
theorem C25_linear (nan : Bool) {ps hs : List K} (hp : ps.Pairwise (· < ·))
    (hl : hs.length = ps.length) {k : ℕ} (hk : k + 1 < ps.length) {p : K} (h1 : ps[k] < p)
    (h2 : p < ps[k + 1]) :
    epsqQuantile .linear nan ps hs p
      = .val (line ps[k] ps[k + 1] (hs[k]'(by omega)) (hs[k + 1]'(by omega)) p) := by
  obtain ⟨hlb, hr⟩ := epsqQuantile_between hp hk h1 h2
  have h0 : 0 < ps.length := by omega
  have hd : ps[k + 1] - ps[k] ≠ 0 := by
    have := lt_trans h1 h2
    exact sub_ne_zero.2 this.ne'
  unfold epsqQuantile
  rw [hlb, Res.val_bind, getAt_lt h0, Res.val_bind, getBack_one h0 le_rfl, Res.val_bind, if_neg hr,
    getAt_lt hk, Res.val_bind, if_neg h2.ne']
  simp only [getBack_one (show 0 < k + 1 by omega) hk.le,
    getBack_one (l := hs) (show 0 < k + 1 by omega) (by omega), Nat.add_sub_cancel,
    getAt_lt (l := hs) (show k + 1 < hs.length by omega), Res.val_bind, interpLinear, fdiv_ne hd,
    Res.pure_eq, line]
  congr 1
  field_simp
  ring

/-- **C25** … which lies between the two estimates (they are in order by `C24_ordered`). -/
theorem C25_linear_between {p0 p1 h0 h1 p : K} (hh : h0 ≤ h1) (hp0 : p0 < p) (hp1 : p < p1) :
    h0 ≤ line p0 p1 h0 h1 p ∧ line p0 p1 h0 h1 p ≤ h1 := by
  have hd : 0 < p1 - p0 := by linarith
  have t0 : 0 ≤ (p - p0) / (p1 - p0) := div_nonneg (by linarith) hd.le
  have t1 : (p - p0) / (p1 - p0) ≤ 1 := by rw [div_le_one hd]; linarith
  unfold line
  constructor <;> nlinarith

theorem interpQuadratic_eq {p p0 p1 p2 : K} (h0 h1 h2 : K) (h01 : p0 < p1) (h12 : p1 < p2) :
    interpQuadratic p p0 p1 p2 h0 h1 h2 = .val (parabola p0 p1 p2 h0 h1 h2 p) := by
  have e21 : p2 - p1 ≠ 0 := sub_ne_zero.2 h12.ne'
  have e10 : p1 - p0 ≠ 0 := sub_ne_zero.2 h01.ne'
  have e20 : p2 - p0 ≠ 0 := sub_ne_zero.2 (lt_trans h01 h12).ne'
  have e01 : p0 - p1 ≠ 0 := sub_ne_zero.2 h01.ne
  have e02 : p0 - p2 ≠ 0 := sub_ne_zero.2 (lt_trans h01 h12).ne
  have e12 : p1 - p2 ≠ 0 := sub_ne_zero.2 h12.ne
  have q21 : (p2 * p2 - p1 * p1) / (p2 - p1) = p2 + p1 := by field_simp; ring
  have q10 : (p1 * p1 - p0 * p0) / (p1 - p0) = p1 + p0 := by field_simp; ring
  have ed : p2 + p1 - (p1 + p0) ≠ 0 := by
    rw [show p2 + p1 - (p1 + p0) = p2 - p0 by ring]; exact e20
  unfold interpQuadratic
  simp only [fdiv_ne e21, fdiv_ne e10, Res.val_bind, q21, q10, fdiv_ne ed, Res.pure_eq, parabola]
  congr 1
  rw [show p2 + p1 - (p1 + p0) = p2 - p0 by ring,
    show p0 - p1 = -(p1 - p0) by ring, show p0 - p2 = -(p2 - p0) by ring,
    show p1 - p2 = -(p2 - p1) by ring]
  field_simp
  ring

/-- **C25** Quadratic variant with at least three probabilities, between two neighbours `k`, `k + 1`: the
parabola through three consecutive estimates that include both neighbours; the third point is the upper
one if `p` is at least as close to the upper neighbour (or there is no lower one), provided there is an
upper one. -/
theorem C25_quadratic (nan : Bool) {ps hs : List K} (hp : ps.Pairwise (· < ·))
    (hl : hs.length = ps.length) (h3 : 3 ≤ ps.length) {k : ℕ} (hk : k + 1 < ps.length) {p : K}
    (h1 : ps[k] < p) (h2 : p < ps[k + 1]) :
    ∃ i, ∃ hi : i + 2 < ps.length,
      ((i = k ∧ (k = 0 ∨ ps[k + 1] - p ≤ p - ps[k])) ∨
        (i + 1 = k ∧ (k + 2 = ps.length ∨ p - ps[k] < ps[k + 1] - p))) ∧
      epsqQuantile .quadratic nan ps hs p
        = .val (parabola ps[i] ps[i + 1] ps[i + 2] (hs[i]'(by omega)) (hs[i + 1]'(by omega))
            (hs[i + 2]'(by omega)) p) := by
  obtain ⟨hlb, hr⟩ := epsqQuantile_between hp hk h1 h2
  have h0 : 0 < ps.length := by omega
  have pw := List.pairwise_iff_getElem.mp hp
  have start : epsqQuantile .quadratic nan ps hs p = (if (k + 1 = 1 ∨ ps[k + 1] - p ≤ p - ps[k])
        ∧ k + 1 ≠ ps.length - 1 then do
          let p2 ← getAt ps (k + 1 + 1)
          let h0 ← getBack hs (k + 1) 1
          let h1 ← getAt hs (k + 1)
          let h2 ← getAt hs (k + 1 + 1)
          interpQuadratic p ps[k] ps[k + 1] p2 h0 h1 h2
        else do
          let p0 ← getBack ps (k + 1) 2
          let h0 ← getBack hs (k + 1) 2
          let h1 ← getBack hs (k + 1) 1
          let h2 ← getAt hs (k + 1)
          interpQuadratic p p0 ps[k] ps[k + 1] h0 h1 h2) := by
    unfold epsqQuantile
    rw [hlb, Res.val_bind, getAt_lt h0, Res.val_bind, getBack_one h0 le_rfl, Res.val_bind,
      if_neg hr, getAt_lt hk, Res.val_bind, if_neg h2.ne']
    simp only [getBack_one (show 0 < k + 1 by omega) hk.le, Nat.add_sub_cancel, Res.val_bind]
  by_cases hc : (k + 1 = 1 ∨ ps[k + 1] - p ≤ p - ps[k]) ∧ k + 1 ≠ ps.length - 1
  · have hk2 : k + 2 < ps.length := by omega
    refine ⟨k, hk2, Or.inl ⟨rfl, hc.1.imp (by omega) id⟩, ?_⟩
    rw [start, if_pos hc]
    simp only [getAt_lt (show k + 1 + 1 < ps.length by omega),
      getAt_lt (l := hs) (show k + 1 + 1 < hs.length by omega),
      getAt_lt (l := hs) (show k + 1 < hs.length by omega),
      getBack_one (l := hs) (show 0 < k + 1 by omega) (by omega), Nat.add_sub_cancel, Res.val_bind]
    exact interpQuadratic_eq _ _ _ (pw k (k + 1) (by omega) hk (by omega))
      (pw (k + 1) (k + 2) hk hk2 (by omega))
  · have hk0 : 0 < k := by
      rcases Nat.eq_zero_or_pos k with rfl | h
      · exact absurd ⟨Or.inl rfl, by omega⟩ hc
      · exact h
    obtain ⟨i, rfl⟩ : ∃ i, k = i + 1 := ⟨k - 1, by omega⟩
    refine ⟨i, by omega, Or.inr ⟨rfl, ?_⟩, ?_⟩
    · by_cases hlast : i + 1 + 2 = ps.length
      · exact Or.inl hlast
      · right
        by_contra hlt
        exact hc ⟨Or.inr (not_lt.1 hlt), by omega⟩
    · rw [start, if_neg hc]
      have e1 : getBack ps (i + 1 + 1) 2 = .val ps[i] := by
        rw [getBack, if_pos (by omega)]
        exact getAt_lt (show i < ps.length by omega)
      have e2 : getBack hs (i + 1 + 1) 2 = .val (hs[i]'(by omega)) := by
        rw [getBack, if_pos (by omega)]
        exact getAt_lt (show i < hs.length by omega)
      simp only [e1, e2, getAt_lt (l := hs) (show i + 1 + 1 < hs.length by omega),
        getBack_one (l := hs) (show 0 < i + 1 + 1 by omega) (by omega), Nat.add_sub_cancel,
        Res.val_bind]
      exact interpQuadratic_eq _ _ _ (pw i (i + 1) (by omega) (by omega) (by omega))
        (pw (i + 1) (i + 2) (by omega) hk (by omega))

/-- **C25** The parabola agrees with each of the three estimates at its own probability. -/
theorem C25_parabola_nodes {p0 p1 p2 : K} (h0 h1 h2 : K) (h01 : p0 < p1) (h12 : p1 < p2) :
    parabola p0 p1 p2 h0 h1 h2 p0 = h0 ∧ parabola p0 p1 p2 h0 h1 h2 p1 = h1 ∧
      parabola p0 p1 p2 h0 h1 h2 p2 = h2 := by
  have e21 : p2 - p1 ≠ 0 := sub_ne_zero.2 h12.ne'
  have e10 : p1 - p0 ≠ 0 := sub_ne_zero.2 h01.ne'
  have e20 : p2 - p0 ≠ 0 := sub_ne_zero.2 (lt_trans h01 h12).ne'
  have e01 : p0 - p1 ≠ 0 := sub_ne_zero.2 h01.ne
  have e02 : p0 - p2 ≠ 0 := sub_ne_zero.2 (lt_trans h01 h12).ne
  have e12 : p1 - p2 ≠ 0 := sub_ne_zero.2 h12.ne
  unfold parabola
  refine ⟨?_, ?_, ?_⟩
  · rw [div_self (mul_ne_zero e01 e02)]; simp
  · rw [div_self (mul_ne_zero e10 e12)]; simp
  · rw [div_self (mul_ne_zero e20 e21)]; simp

/-- **C25/C56 fails** The quadratic variant with exactly two probabilities reads before the beginning of the
vector for every probability strictly between them. -/
theorem C25_quadratic_two_ub (nan : Bool) {p0 p1 h0 h1 p : K} (hp0 : p0 < p) (hp1 : p < p1) :
    epsqQuantile .quadratic nan [p0, p1] [h0, h1] p = .ub := by
  have hlt := lt_trans hp0 hp1
  have hp : [p0, p1].Pairwise (· < ·) := by simp [hlt]
  obtain ⟨hlb, hr⟩ := epsqQuantile_between hp (k := 0) (by simp) hp0 hp1
  unfold epsqQuantile
  rw [hlb, Res.val_bind, getAt_lt (by simp), Res.val_bind, getBack_one (by simp) le_rfl,
    Res.val_bind, if_neg hr, getAt_lt (by simp), Res.val_bind]
  simp only [List.getElem_cons_succ, List.getElem_cons_zero, if_neg hp1.ne']
  rw [getBack_one (by simp) (by simp), Res.val_bind, if_neg (by simp)]
  simp [getBack]

/-- **C25/C56 fails** With an empty probability vector every extraction is undefined. -/
theorem C25_empty_ub (kind : Interp) (nan : Bool) (hs : List K) (p : K) :
    epsqQuantile kind nan [] hs p = .ub := by
  simp [epsqQuantile, lowerBound, getAt]

theorem epsqQuantile_cases {ps : List K} (h0 : 0 < ps.length) (p : K) :
    (p < ps[0] ∨ ps[ps.length - 1] < p) ∨ (∃ k, ∃ hk : k < ps.length, ps[k] = p) ∨
      (∃ k, ∃ hk : k + 1 < ps.length, ps[k] < p ∧ p < ps[k + 1]) := by
  by_cases hr : p < ps[0] ∨ ps[ps.length - 1] < p
  · exact Or.inl hr
  by_cases he : ∃ k, ∃ hk : k < ps.length, ps[k] = p
  · exact Or.inr (Or.inl he)
  right; right
  push Not at hr he
  set k := ps.findIdx (fun e => decide (p ≤ e)) with hk
  have hkl : k < ps.length := by
    rw [hk, List.findIdx_lt_length]
    exact ⟨_, List.getElem_mem (show ps.length - 1 < ps.length by omega), by simpa using hr.2⟩
  have h2 : p ≤ ps[k] := by
    simpa using List.findIdx_getElem (p := fun e => decide (p ≤ e)) (xs := ps) (w := hkl)
  have hk0 : k ≠ 0 := by
    intro e
    simp only [e] at h2
    exact he 0 h0 (le_antisymm hr.1 h2)
  obtain ⟨j, hj⟩ := Nat.exists_eq_succ_of_ne_zero hk0
  have h1 : ps[j]'(by omega) < p := by
    have := List.not_of_lt_findIdx (p := fun e => decide (p ≤ e)) (xs := ps)
      (show j < ps.findIdx (fun e => decide (p ≤ e)) by omega)
    simpa using this
  refine ⟨j, by omega, h1, lt_of_le_of_ne ?_ fun e => he (j + 1) (by omega) e.symm⟩
  simp only [hj] at h2
  exact h2

/-- **C25** With increasing probabilities (and not exactly two of them for the quadratic variant) every
request has a defined outcome: NaN/exception outside the range, a number inside. -/
theorem C25_defined (kind : Interp) (nan : Bool) {ps hs : List K} (hp : ps.Pairwise (· < ·))
    (h0 : 0 < ps.length) (hl : hs.length = ps.length)
    (hk : kind = .quadratic → ps.length ≠ 2) (p : K) :
    ((p < ps[0] ∨ ps[ps.length - 1] < p) ∧
        epsqQuantile kind nan ps hs p = if nan then .nonfinite else .thrown) ∨
      (¬ (p < ps[0] ∨ ps[ps.length - 1] < p) ∧ ∃ v, epsqQuantile kind nan ps hs p = .val v) := by
  by_cases hr : p < ps[0] ∨ ps[ps.length - 1] < p
  · exact Or.inl ⟨hr, C25_out_of_range kind nan hs hp h0 hr⟩
  refine Or.inr ⟨hr, ?_⟩
  rcases epsqQuantile_cases h0 p with h | ⟨k, hk', rfl⟩ | ⟨k, hk', h1, h2⟩
  · exact absurd h hr
  · exact ⟨_, C25_exact kind nan hp hl hk'⟩
  · cases kind with
    | linear => exact ⟨_, C25_linear nan hp hl hk' h1 h2⟩
    | quadratic =>
      have := hk rfl
      obtain ⟨i, hi, -, e⟩ := C25_quadratic nan hp hl (by omega) hk' h1 h2
      exact ⟨_, e⟩

theorem asResult_val {S : Type} (s : S) {r : Res K} (h : r = .nonfinite ∨ r = .thrown ∨ ∃ v, r = .val v) :
    asResult s r = .val (s, r) := by
  rcases h with rfl | rfl | ⟨v, rfl⟩ <;> rfl

theorem epsqResult_total {q : ℕ} {h : List K} (hl : 2 * q < h.length) :
    epsqResult q h = .val ((List.range' 1 q).map fun i => (h[2 * i]?).getD 0) := by
  unfold epsqResult
  rw [mapRes_val]
  intro i hi
  rw [List.mem_range'_1] at hi
  have hl : 2 * i < h.length := by omega
  rw [getAt_lt hl]
  simp [hl]

theorem epsqQuantile_query (kind : Interp) (nan : Bool) {ps : List K} (hp : ps.Pairwise (· < ·))
    (h0 : 0 < ps.length) (hk : kind = .quadratic → ps.length ≠ 2) {s : PsqSt K} {xs : List K}
    (I : s.Inv (2 * ps.length + 3) (extendedFractions ps) xs) (p : K) :
    (epsqQuantileSet kind nan ps).query s p = .val (s, epsqQuantile kind nan ps
      ((List.range' 1 ps.length).map fun i => (s.heights[2 * i]?).getD 0) p) := by
  have hl := (psqInv_len I).1
  simp only [epsqQuantileSet]
  rw [epsqResult_total (by omega), Res.val_bind]
  apply asResult_val
  rcases C25_defined kind nan (hs := (List.range' 1 ps.length).map fun i => (s.heights[2 * i]?).getD 0)
    hp h0 (by simp) hk p with ⟨-, h⟩ | ⟨-, v, h⟩
  · rw [h]; cases nan <;> simp
  · exact Or.inr (Or.inr ⟨v, h⟩)

theorem epsqQuantile_exec (kind : Interp) (nan : Bool) {ps : List K} (hp : ps.Pairwise (· < ·))
    (h0 : 0 < ps.length) (hk : kind = .quadratic → ps.length ≠ 2) (h : List (Op K K)) :
    ∃ s, (epsqQuantileSet kind nan ps).exec (epsqQuantileSet kind nan ps).init h = .val s ∧
      s.Inv (2 * ps.length + 3) (extendedFractions ps) (pushes h) := by
  have := RMachine.exec_inv (epsqQuantileSet kind nan ps)
    (fun s xs => s.Inv (2 * ps.length + 3) (extendedFractions ps) xs)
    (fun s xs x I => by
      simp only [epsqQuantileSet, extendedIncr_eq]
      exact psqPush_inv (by omega) _ s xs x I)
    (fun s xs q I => ⟨s, _, epsqQuantile_query kind nan hp h0 hk I q, I⟩)
    (epsqQuantileSet kind nan ps).init [] (by
      simp only [epsqQuantileSet, extendedIncr_eq]
      exact psqInit_inv (by omega) _ (extendedDes_eq ps)) h
  simpa using this

/-- **C25** The accumulator set: after any history, an extraction interpolates the values that
`extended_p_square` returns for the same samples.  It never invokes undefined behaviour (**C56**) and does
not depend on earlier extractions (**C28**). -/
theorem C25_set (kind : Interp) (nan : Bool) {ps : List K} (hp : ps.Pairwise (· < ·))
    (h0 : 0 < ps.length) (hk : kind = .quadratic → ps.length ≠ 2) (h : List (Op K K)) (p : K) :
    ∃ vs, (epsqSet ps).answer (onlyPushes (pushes h)) () = .val vs ∧ vs.length = ps.length ∧
      (epsqQuantileSet kind nan ps).answer h p = .val (epsqQuantile kind nan ps vs p) := by
  obtain ⟨s, e, I⟩ := epsqQuantile_exec kind nan hp h0 hk h
  obtain ⟨t, f, J⟩ := epsq_exec ps (onlyPushes (Q := Unit) (pushes h))
  rw [pushes_only] at J
  have hl := (psqInv_len J).1
  refine ⟨(List.range' 1 ps.length).map fun i => (t.heights[2 * i]?).getD 0, ?_, by simp, ?_⟩
  · unfold RMachine.answer
    rw [f, Res.val_bind]
    simp only [epsqSet]
    rw [epsqResult_total (by omega)]
    rfl
  · unfold RMachine.answer
    rw [e, Res.val_bind, epsqQuantile_query kind nan hp h0 hk I, Res.val_bind,
      (psqInv_unique I J).1]
    rfl

/-- **C25** The linear variant stays within the data for every requested probability in range. -/
theorem C25_linear_within (nan : Bool) {ps : List K} (hp : ps.Pairwise (· < ·)) (h0 : 0 < ps.length)
    (h : List (Op K K)) (hn : 2 * ps.length + 3 ≤ (pushes h).length) {p : K}
    (hr : ps[0] ≤ p ∧ p ≤ ps[ps.length - 1]) :
    ∃ v, (epsqQuantileSet .linear nan ps).answer h p = .val (.val v) ∧
      (∃ a ∈ pushes h, a ≤ v) ∧ (∃ b ∈ pushes h, v ≤ b) := by
  obtain ⟨vs, e, hl, ea⟩ := C25_set .linear nan hp h0 (by simp) h p
  obtain ⟨vs', e', -, hs, hb⟩ := C24_ordered ps (onlyPushes (Q := Unit) (pushes h))
    (by rwa [pushes_only])
  rw [e, Res.val.injEq] at e'
  subst e'
  rw [pushes_only] at hb
  rcases epsqQuantile_cases h0 p with h' | ⟨k, hk, rfl⟩ | ⟨k, hk, h1, h2⟩
  · rcases h' with h' | h'
    · exact absurd hr.1 (not_le.2 h')
    · exact absurd hr.2 (not_le.2 h')
  · rw [ea, C25_exact .linear nan hp hl hk]
    exact ⟨_, rfl, hb _ (List.getElem_mem _)⟩
  · rw [ea, C25_linear nan hp hl hk h1 h2]
    have hm := List.pairwise_iff_getElem.mp hs k (k + 1) (by omega) (by omega) (by omega)
    have hb' := C25_linear_between hm h1 h2
    obtain ⟨a, ha, hab⟩ := (hb _ (List.getElem_mem (show k < vs.length by omega))).1
    obtain ⟨b, hbm, hbb⟩ := (hb _ (List.getElem_mem (show k + 1 < vs.length by omega))).2
    exact ⟨_, rfl, ⟨a, ha, hab.trans hb'.1⟩, ⟨b, hbm, hb'.2.trans hbb⟩⟩

/-- The quadratic variant can leave the data: estimates 0, 0, 1 at 0.1, 0.5, 0.6 interpolate below 0. -/
theorem C25_quadratic_not_within :
    ∃ v : ℚ, epsqQuantile .quadratic true [1 / 10, 5 / 10, 6 / 10] [0, 0, 1] (3 / 10) = .val v ∧ v < 0 := by
  refine ⟨-4 / 5, ?_, by norm_num⟩
  obtain ⟨i, hi, hc, e⟩ := C25_quadratic true (ps := [1 / 10, 5 / 10, 6 / 10]) (hs := [0, 0, (1 : ℚ)])
    (by simp; norm_num) rfl (by simp) (k := 0) (p := 3 / 10) (by simp) (by norm_num) (by norm_num)
  have : i = 0 := by simp at hi; omega
  subst this
  rw [e]
  norm_num [parabola]

/-! ## Concrete cases -/

example : (epsqQuantileSet .linear true [1 / 4, 1 / 2, 3 / 4]).answer (onlyPushes psqDemo) (1 / 3)
    = .val (.val (28 / 9)) := by decide +kernel

example : (epsqQuantileSet .quadratic true [1 / 4, 1 / 2, 3 / 4]).answer (onlyPushes psqDemo) (1 / 3)
    = .val (.val (82 / 27)) := by decide +kernel

example : (epsqQuantileSet .quadratic true [1 / 4, 1 / 2, 3 / 4]).answer (onlyPushes psqDemo) (1 / 5)
    = .val .nonfinite := by decide +kernel

end Acc
