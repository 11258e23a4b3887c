import Verif.Props.RoundTail
import Verif.Props.Rolling
import Verif.Props.PSquare
import Verif.Proofs.Scale
import Verif.Props.RoundConst
import Verif.Props.Monotone

/-!
# C103: larger samples do not give smaller statistics

Two streams of the same length, the second at least as large as the first in every position.  The statements hold in
floating point arithmetic with any rounding (with the identity as rounding: in exact arithmetic).
-/

set_option linter.unusedSectionVars false

namespace Acc

variable {K : Type} [Field K] [LinearOrder K] [IsStrictOrderedRing K] {R : Rounding K}

theorem Fl.add_mono {a a' b b' : Fl R} (h : a ≤ a') (h' : b ≤ b') : a + b ≤ a' + b' :=
  R.mono (add_le_add (Fl.le_iff.1 h) (Fl.le_iff.1 h'))

theorem Fl.mul_mono_left {a a' w : Fl R} (hw : 0 ≤ w) (h : a ≤ a') : a * w ≤ a' * w :=
  R.mono (mul_le_mul_of_nonneg_right (Fl.le_iff.1 h) (Fl.le_iff.1 hw))

theorem Fl.mul_mono_nonneg {a a' b b' : Fl R} (ha : 0 ≤ a) (hb : 0 ≤ b) (h : a ≤ a') (h' : b ≤ b') :
    0 ≤ a * b ∧ a * b ≤ a' * b' := by
  have ha' := Fl.le_iff.1 ha
  have hb' := Fl.le_iff.1 hb
  have h1 := Fl.le_iff.1 h
  have h2 := Fl.le_iff.1 h'
  change (0 : K) ≤ a.val at ha'
  change (0 : K) ≤ b.val at hb'
  refine ⟨?_, R.mono (mul_le_mul h1 h2 hb' (ha'.trans h1))⟩
  show (0 : K) ≤ R.rd _
  rw [← R.zero]
  exact R.mono (_root_.mul_nonneg ha' hb')

theorem Fl.fdiv_mono {a a' n : Fl R} (hn : 0 ≤ n) (h : a ≤ a') : Res.Lift (· ≤ ·) (fdiv a n) (fdiv a' n) := by
  unfold fdiv
  by_cases c : n = 0
  · rw [if_pos c, if_pos c]; trivial
  · rw [if_neg c, if_neg c]
    exact R.mono (div_le_div_of_nonneg_right (Fl.le_iff.1 h) (Fl.le_iff.1 hn))

theorem Fl.nat_nonneg (n : ℕ) : (0 : Fl R) ≤ ((n : ℕ) : Fl R) := by
  show (0 : K) ≤ R.rd n
  rw [← R.zero]
  exact R.mono (Nat.cast_nonneg n)

theorem Fl.sub_nonneg' {a b : Fl R} (h : b ≤ a) : 0 ≤ a - b := by
  show (0 : K) ≤ R.rd _
  rw [← R.zero]
  exact R.mono (_root_.sub_nonneg.2 (Fl.le_iff.1 h))

/-! ## Sums, means, moments -/

/-- **C103** `sum` (of samples, weights or variates). -/
theorem C103_sum {xs ys : List (Fl R)} (h : List.Forall₂ (· ≤ ·) xs ys) (x0 : Fl R) :
    sumRun id x0 xs ≤ sumRun id x0 ys :=
  foldl_rel (r := (· ≤ ·)) (q := (· ≤ ·)) (fun _ _ _ _ hs ha => Fl.add_mono hs ha) h le_rfl

/-- **C103** `mean`: the same outcome, and if it is a number, not a smaller one. -/
theorem C103_mean {xs ys : List (Fl R)} (h : List.Forall₂ (· ≤ ·) xs ys) (x0 : Fl R) :
    Res.Lift (· ≤ ·) ((lazyMean x0).read ((lazyMean x0).run xs)) ((lazyMean x0).read ((lazyMean x0).run ys)) := by
  have : (fun s t : CountSum (Fl R) => s.cnt = t.cnt ∧ s.sum ≤ t.sum) ((lazyMean x0).run xs) ((lazyMean x0).run ys) :=
    foldl_rel (r := fun s t : CountSum (Fl R) => s.cnt = t.cnt ∧ s.sum ≤ t.sum)
        (fun s t a b hs ha => ⟨congrArg (· + 1) hs.1, Fl.add_mono hs.2 ha⟩) h ⟨rfl, le_rfl⟩
  show Res.Lift _ (fdiv _ _) (fdiv _ _)
  rw [this.1]
  exact Fl.fdiv_mono (Fl.nat_nonneg _) this.2

/-- **C103** `immediate_mean`. -/
theorem C103_immediate_mean {xs ys : List (Fl R)} (h : List.Forall₂ (· ≤ ·) xs ys) (x0 : Fl R) :
    Res.Lift (· ≤ ·) ((immMean x0).read ((immMean x0).run xs)) ((immMean x0).read ((immMean x0).run ys)) := by
  have : (fun s t : CountMean (Fl R) => s.cnt = t.cnt ∧ Res.Lift (· ≤ ·) s.mean t.mean) ((immMean x0).run xs)
      ((immMean x0).run ys) := by
    refine foldl_rel (r := fun s t : CountMean (Fl R) => s.cnt = t.cnt ∧ Res.Lift (· ≤ ·) s.mean t.mean)
        (fun s t a b hs ha => ⟨congrArg (· + 1) hs.1, ?_⟩) h ⟨rfl, Res.Lift.refl (fun _ => le_rfl) _⟩
    show Res.Lift _ (immMeanStep (s.cnt + 1) s.mean a) (immMeanStep (t.cnt + 1) t.mean b)
    rw [hs.1]
    refine hs.2.bind fun m m' hm => Fl.fdiv_mono (Fl.nat_nonneg _) (Fl.add_mono (Fl.mul_mono_left ?_ hm) ha)
    refine Fl.sub_nonneg' ?_
    show (1 : K) ≤ R.rd _
    rw [← R.one]
    exact R.mono (by rw [Nat.cast_succ]; exact le_add_of_nonneg_left (Nat.cast_nonneg _))
  exact this.2

theorem mpow_mono {x y : Fl R} (h0 : 0 ≤ x) (h : x ≤ y) (n : ℕ) : 0 ≤ mpow x n ∧ mpow x n ≤ mpow y n := by
  induction n using Nat.strong_induction_on with
  | _ n ih =>
    unfold mpow
    by_cases c0 : n = 0
    · rw [dif_pos c0, dif_pos c0]
      exact ⟨(zero_le_one : (0 : K) ≤ 1), le_rfl⟩
    · rw [dif_neg c0, dif_neg c0]
      by_cases c1 : n = 1
      · rw [dif_pos c1, dif_pos c1]; exact ⟨h0, h⟩
      · rw [dif_neg c1, dif_neg c1]
        obtain ⟨i1, i2⟩ := ih (n / 2) (by omega)
        obtain ⟨z1, z2⟩ := Fl.mul_mono_nonneg i1 i1 i2 i2
        by_cases c2 : n % 2 = 1
        · simp only [c2, if_true]; exact Fl.mul_mono_nonneg z1 h0 z2 h
        · simp only [c2, if_false]; exact ⟨z1, z2⟩

/-- **C103** `moment<N>` of samples that are not negative. -/
theorem C103_moment (N : ℕ) {xs ys : List (Fl R)} (h : List.Forall₂ (fun x y => 0 ≤ x ∧ x ≤ y) xs ys) (x0 : Fl R) :
    Res.Lift (· ≤ ·) (momentRun N x0 xs) (momentRun N x0 ys) := by
  have : (fun s t : MomentSt (Fl R) => s.cnt = t.cnt ∧ s.sum ≤ t.sum) (xs.foldl (MomentSt.push N) (MomentSt.init x0))
      (ys.foldl (MomentSt.push N) (MomentSt.init x0)) :=
    foldl_rel (r := fun s t : MomentSt (Fl R) => s.cnt = t.cnt ∧ s.sum ≤ t.sum)
        (fun s t a b hs ha => ⟨congrArg (· + 1) hs.1, Fl.add_mono hs.2 (mpow_mono ha.1 ha.2 N).2⟩) h ⟨rfl, le_rfl⟩
  show Res.Lift _ (fdiv _ _) (fdiv _ _)
  rw [this.1]
  exact Fl.fdiv_mono (Fl.nat_nonneg _) this.2

/-- **C103** `min` and `max`. -/
theorem C103_extremes {α : Type} [LinearOrder α] {xs ys : List α} (h : List.Forall₂ (· ≤ ·) xs ys) (lo hi : α) :
    minRun ltb hi xs ≤ minRun ltb hi ys ∧ maxRun ltb lo xs ≤ maxRun ltb lo ys := by
  constructor
  · refine foldl_rel (r := (· ≤ ·)) (fun s t a b hs ha => ?_) h le_rfl
    have e : ∀ s a : α, minAssign ltb s a = min s a := fun s a => by
      unfold minAssign ltb
      rw [min_def]
      by_cases c : a < s
      · simp [c]
      · simp [c, not_lt.1 c]
    rw [e, e]
    exact min_le_min hs ha
  · refine foldl_rel (r := (· ≤ ·)) (fun s t a b hs ha => ?_) h le_rfl
    have e : ∀ s a : α, maxAssign ltb s a = max s a := fun s a => by
      unfold maxAssign ltb
      rw [max_def]
      by_cases c : s < a
      · simp [c, c.le]
      · by_cases c' : s ≤ a
        · have := le_antisymm c' (not_lt.1 c); simp [this]
        · simp [c, c']
    rw [e, e]
    exact max_le_max hs ha

/-! ## Weighted -/

/-- **C103** `weighted_sum`, `weighted_mean` and `immediate_weighted_mean`, with the same weights, none negative. -/
theorem C103_weighted {ps qs : List (Fl R × Fl R)}
    (h : List.Forall₂ (fun a b => a.1 ≤ b.1 ∧ a.2 = b.2 ∧ 0 ≤ a.2) ps qs) (x0 : Fl R) :
    weightedSumRun x0 ps ≤ weightedSumRun x0 qs ∧
      Res.Lift (· ≤ ·) ((lazyWMean x0).read ((lazyWMean x0).run ps)) ((lazyWMean x0).read ((lazyWMean x0).run qs)) ∧
      Res.Lift (· ≤ ·) ((immWMean x0).read ((immWMean x0).run ps)) ((immWMean x0).read ((immWMean x0).run qs)) := by
  have step : ∀ (s t : Fl R) (a b : Fl R × Fl R), s ≤ t → (a.1 ≤ b.1 ∧ a.2 = b.2 ∧ 0 ≤ a.2) →
      weightedSumStep s a ≤ weightedSumStep t b := by
    rintro s t ⟨a, w⟩ ⟨b, _⟩ hs ⟨hab, rfl, hw⟩
    exact Fl.add_mono hs (Fl.mul_mono_left hw hab)
  have wpos : ∀ (W w : Fl R), 0 ≤ W → 0 ≤ w → 0 ≤ W + w ∧ w ≤ W + w := by
    intro W w hW hw
    have h1 := Fl.le_iff.1 hW
    rw [Fl.val_zero] at h1
    have : w ≤ W + w := by
      show w.val ≤ R.rd _
      rw [← w.rd_val]
      exact R.mono (le_add_of_nonneg_left h1 |>.trans (by rw [w.rd_val]))
    exact ⟨hw.trans this, this⟩
  refine ⟨foldl_rel step h le_rfl, ?_, ?_⟩
  · have : (fun s t : WSums (Fl R) => s.sumW = t.sumW ∧ 0 ≤ s.sumW ∧ s.wsum ≤ t.wsum) ((lazyWMean x0).run ps)
        ((lazyWMean x0).run qs) := by
      refine foldl_rel (r := fun s t : WSums (Fl R) => s.sumW = t.sumW ∧ 0 ≤ s.sumW ∧ s.wsum ≤ t.wsum)
        (fun s t a b hs ha => ⟨?_, (wpos _ _ hs.2.1 ha.2.2).1, step _ _ _ _ hs.2.2 ha⟩) h
        ⟨rfl, le_rfl, le_rfl⟩
      show s.sumW + a.2 = t.sumW + b.2
      rw [hs.1, ha.2.1]
    show Res.Lift _ (fdiv _ _) (fdiv _ _)
    rw [← this.1]
    exact Fl.fdiv_mono this.2.1 this.2.2
  · have : (fun s t : WMean (Fl R) => s.sumW = t.sumW ∧ 0 ≤ s.sumW ∧ Res.Lift (· ≤ ·) s.mean t.mean) ((immWMean x0).run ps)
        ((immWMean x0).run qs) := by
      refine foldl_rel (r := fun s t : WMean (Fl R) => s.sumW = t.sumW ∧ 0 ≤ s.sumW ∧ Res.Lift (· ≤ ·) s.mean t.mean)
        (fun s t a b hs ha => ⟨?_, (wpos _ _ hs.2.1 ha.2.2).1, ?_⟩) h
        ⟨rfl, le_rfl, Res.Lift.refl (fun _ => le_rfl) _⟩
      · show s.sumW + a.2 = t.sumW + b.2
        rw [hs.1, ha.2.1]
      · show Res.Lift _ (immWMeanStep (s.sumW + a.2) s.mean a) (immWMeanStep (t.sumW + b.2) t.mean b)
        obtain ⟨w1, w2⟩ := wpos _ _ hs.2.1 ha.2.2
        rw [← hs.1, ← ha.2.1]
        unfold immWMeanStep
        rw [← ha.2.1]
        exact hs.2.2.bind fun m m' hm => Fl.fdiv_mono w1
          (Fl.add_mono (Fl.mul_mono_left (Fl.sub_nonneg' w2) hm) (Fl.mul_mono_left ha.2.2 ha.1))
    exact this.2.2

/-! ## Tails -/

section
variable {α : Type} [LinearOrder α]

theorem orderedInsert_of_le {side : Side} {a : α} {s : List α} (h : ∀ b ∈ s, Spec.geExt side a b) :
    s.orderedInsert (Spec.geExt side) a = a :: s := by
  cases s with
  | nil => rfl
  | cons b s => exact List.orderedInsert_cons_of_le _ _ (h b (by simp))

/-- Insertion into sorted lists. -/
theorem orderedInsert_mono {side : Side} {s t : List α} (hst : List.Forall₂ (· ≤ ·) s t)
    (hs : s.Pairwise (Spec.geExt side)) (ht : t.Pairwise (Spec.geExt side)) {x y : α} (h : x ≤ y) :
    List.Forall₂ (· ≤ ·) (s.orderedInsert (Spec.geExt side) x) (t.orderedInsert (Spec.geExt side) y) := by
  induction hst generalizing x y with
  | nil => exact .cons h .nil
  | @cons a b s t hab hst ih =>
    rw [List.pairwise_cons] at hs ht
    have es := orderedInsert_of_le hs.1
    have et := orderedInsert_of_le ht.1
    have total : ∀ u v : α, ¬ Spec.geExt side u v → Spec.geExt side v u := by
      intro u v hn
      cases side
      · exact (not_le.1 hn).le
      · exact (not_le.1 hn).le
    by_cases c1 : Spec.geExt side x a <;> by_cases c2 : Spec.geExt side y b
    · rw [List.orderedInsert_cons_of_le _ _ c1, List.orderedInsert_cons_of_le _ _ c2]
      exact .cons h (.cons hab hst)
    · rw [List.orderedInsert_cons_of_le _ _ c1, List.orderedInsert_of_not_le _ _ c2]
      have c2' := total _ _ c2
      have hxb : x ≤ b := by
        cases side
        · exact (show x ≤ a from c1).trans hab
        · exact h.trans c2'
      have hay : a ≤ y := by
        cases side
        · exact hab.trans c2'
        · exact (show a ≤ x from c1).trans h
      refine .cons hxb ?_
      rw [← es]
      exact ih hs.2 ht.2 hay
    · rw [List.orderedInsert_of_not_le _ _ c1, List.orderedInsert_cons_of_le _ _ c2]
      have c1' := total _ _ c1
      have hay : a ≤ y := by
        cases side
        · exact (show a ≤ x from c1').trans h
        · exact hab.trans c2
      have hxb : x ≤ b := by
        cases side
        · exact h.trans c2
        · exact (show x ≤ a from c1').trans hab
      refine .cons hay ?_
      rw [← et]
      exact ih hs.2 ht.2 hxb
    · rw [List.orderedInsert_of_not_le _ _ c1, List.orderedInsert_of_not_le _ _ c2]
      exact .cons hab (ih hs.2 ht.2 h)

theorem byExtremity_mono {side : Side} {xs ys : List α} (h : List.Forall₂ (· ≤ ·) xs ys) :
    List.Forall₂ (· ≤ ·) (Spec.byExtremity side xs) (Spec.byExtremity side ys) := by
  induction h with
  | nil => exact .nil
  | @cons x y xs ys hxy _ ih =>
    exact orderedInsert_mono ih (byExtremity_sorted side xs) (byExtremity_sorted side ys) hxy

theorem forall₂_take {r : α → α → Prop} {s t : List α} (h : List.Forall₂ r s t) (k : ℕ) :
    List.Forall₂ r (s.take k) (t.take k) := by
  induction h generalizing k with
  | nil => simp
  | cons a _ ih =>
    cases k with
    | zero => simp
    | succ k => exact .cons a (ih k)

theorem extremes_mono {side : Side} {xs ys : List α} (h : List.Forall₂ (· ≤ ·) xs ys) (k : ℕ) :
    List.Forall₂ (· ≤ ·) (Spec.extremes side k xs) (Spec.extremes side k ys) := forall₂_take (byExtremity_mono h) k

/-- **C103** The cached tail, left or right, entry by entry; the extractions in between and the variates may differ. -/
theorem C103_tail {V W : Type} (H H' : HeapImpl ℕ) (side : Side) {k : ℕ} (hk : 1 ≤ k) (x0 y0 : α) (v0 : V) (w0 : W)
    {h : List (Op (α × V) Unit)} {h' : List (Op (α × W) Unit)}
    (hh : List.Forall₂ (· ≤ ·) ((pushes h).map Prod.fst) ((pushes h').map Prod.fst)) :
    Res.Lift (List.Forall₂ (· ≤ ·)) (extractTail H side k x0 v0 h) (extractTail H' side k y0 w0 h') := by
  rw [C15_tail H side hk, C15_tail H' side hk]
  exact extremes_mono hh k

end

section
variable [FloorRing K] {V W : Type}

theorem tailBoth_eq (H : HeapImpl ℕ) (side : Side) (nan : Bool) {k : ℕ} (hk : 1 ≤ k) (x0 : Fl R) (v0 : V)
    (h : List (Op (Fl R × V) Unit)) (p : Fl R) :
    tailQuantile H side nan k x0 v0 h p = (do
      let n ← tailN side (pushes h).length p
      tailQuantileResult nan n (Spec.extremes side k ((pushes h).map Prod.fst))) ∧
    nonCoherentTailMean H side nan k x0 v0 h p = (do
      let n ← tailN side (pushes h).length p
      nonCoherentTailMeanResult nan n (Spec.extremes side k ((pushes h).map Prod.fst))) := by
  obtain ⟨s, out, hr, ht, _, h3, _⟩ := extract_both H side hk x0 v0 h
  unfold tailQuantile nonCoherentTailMean
  rw [hr, Res.val_bind, Res.val_bind, ht, h3]
  exact ⟨rfl, rfl⟩

/-- **C103** `tail_quantile` and `non_coherent_tail_mean`. -/
theorem C103_tail_estimates (H H' : HeapImpl ℕ) (side : Side) (nan : Bool) {k : ℕ} (hk : 1 ≤ k) (x0 y0 : Fl R) (v0 : V) (w0 : W)
    {h : List (Op (Fl R × V) Unit)} {h' : List (Op (Fl R × W) Unit)}
    (hh : List.Forall₂ (· ≤ ·) ((pushes h).map Prod.fst) ((pushes h').map Prod.fst)) (p : Fl R) :
    Res.Lift (· ≤ ·) (tailQuantile H side nan k x0 v0 h p) (tailQuantile H' side nan k y0 w0 h' p) ∧
      Res.Lift (· ≤ ·) (nonCoherentTailMean H side nan k x0 v0 h p) (nonCoherentTailMean H' side nan k y0 w0 h' p) := by
  have hl : (pushes h).length = (pushes h').length := by simpa using hh.length_eq
  have he := extremes_mono (side := side) hh k
  have hel := he.length_eq
  rw [(tailBoth_eq H side nan hk x0 v0 h p).1, (tailBoth_eq H' side nan hk y0 w0 h' p).1,
    (tailBoth_eq H side nan hk x0 v0 h p).2, (tailBoth_eq H' side nan hk y0 w0 h' p).2, hl]
  constructor
  · refine (Res.Lift.refl (r := (· = ·)) (fun _ => rfl) _).bind fun n _ en => ?_
    subst en
    unfold tailQuantileResult
    rw [hel]
    by_cases c : n < (Spec.extremes side k ((pushes h').map Prod.fst)).length
    · rw [if_pos c, if_pos c]
      by_cases c0 : n = 0
      · rw [if_pos c0, if_pos c0]; trivial
      · rw [if_neg c0, if_neg c0, List.getElem?_eq_getElem (by omega), List.getElem?_eq_getElem (by omega)]
        exact List.Forall₂.get he (i := n - 1) (by omega) (by omega)
    · rw [if_neg c, if_neg c]
      exact Res.Lift.refl (fun _ => le_rfl) _
  · refine (Res.Lift.refl (r := (· = ·)) (fun _ => rfl) _).bind fun n _ en => ?_
    subst en
    unfold nonCoherentTailMeanResult
    rw [hel]
    by_cases c : n ≤ (Spec.extremes side k ((pushes h').map Prod.fst)).length
    · rw [if_pos c, if_pos c]
      exact Fl.fdiv_mono (Fl.nat_nonneg _)
        (foldl_rel (r := (· ≤ ·)) (q := (· ≤ ·)) (fun _ _ _ _ hs ha => Fl.add_mono hs ha) (forall₂_take he n) le_rfl)
    · rw [if_neg c, if_neg c]
      exact Res.Lift.refl (fun _ => le_rfl) _

end

/-! ## Rolling: in exact arithmetic only -/

theorem forall₂_drop {α : Type} {r : α → α → Prop} {s t : List α} (h : List.Forall₂ r s t) (k : ℕ) :
    List.Forall₂ r (s.drop k) (t.drop k) := by
  induction h generalizing k with
  | nil => simp
  | cons a h' ih =>
    cases k with
    | zero => exact .cons a h'
    | succ k => exact ih k

/-- **C103** `rolling_sum` and both rolling means in exact arithmetic. -/
theorem C103_rolling (kind : RollMeanKind) {N : ℕ} (hN : 0 < N) {xs ys : List K} (h : List.Forall₂ (· ≤ ·) xs ys)
    (h0 : xs ≠ []) :
    Res.Lift (· ≤ ·) (rollRun kind N 0 xs).sum (rollRun kind N 0 ys).sum ∧
      Res.Lift (· ≤ ·) ((rollRun kind N 0 xs).mean kind) ((rollRun kind N 0 ys).mean kind) := by
  have hl := h.length_eq
  have h0' : ys ≠ [] := by
    rintro rfl
    cases h; exact h0 rfl
  have hd := forall₂_drop h (xs.length - N)
  have hs : (xs.drop (xs.length - N)).sum ≤ (ys.drop (ys.length - N)).sum := by
    rw [← hl]
    exact List.Forall₂.sum_le_sum hd
  rw [C13_sum, C13_sum, C13_mean kind N hN xs h0, C13_mean kind N hN ys h0']
  refine ⟨hs, ?_⟩
  show Spec.mean _ ≤ Spec.mean _
  unfold Spec.mean
  have hl' : (xs.drop (xs.length - N)).length = (ys.drop (ys.length - N)).length := by simp [hl]
  rw [hl']
  exact div_le_div_of_nonneg_right hs (Nat.cast_nonneg _)

/-! ## Weighted tail quantiles -/

theorem weightBeyond_anti {V : Type} (wt : V → K) {ps qs : List (K × V)}
    (h : List.Forall₂ (fun a b => a.1 ≤ b.1 ∧ a.2 = b.2 ∧ 0 ≤ wt a.2) ps qs) (y : K) :
    Spec.weightBeyond .left wt qs y ≤ Spec.weightBeyond .left wt ps y ∧
      Spec.totalWeight wt ps = Spec.totalWeight wt qs ∧ (∀ a ∈ ps, 0 ≤ wt a.2) ∧ ∀ b ∈ qs, 0 ≤ wt b.2 := by
  induction h with
  | nil => simp [Spec.weightBeyond, Spec.totalWeight]
  | @cons a b ps qs hab _ ih =>
    obtain ⟨i1, i2, i3, i4⟩ := ih
    obtain ⟨h1, h2, h3⟩ := hab
    refine ⟨?_, ?_, ?_, ?_⟩
    · unfold Spec.weightBeyond Spec.totalWeight at i1 ⊢
      rw [List.filter_cons, List.filter_cons]
      by_cases c : b.1 ≤ y
      · rw [if_pos (decide_eq_true (show Spec.geExt .left b.1 y from c)),
          if_pos (decide_eq_true (show Spec.geExt .left a.1 y from h1.trans c)), List.map_cons, List.map_cons, List.sum_cons,
          List.sum_cons, h2]
        linarith
      · rw [if_neg (by simpa using (show ¬ Spec.geExt .left b.1 y from c))]
        by_cases c' : a.1 ≤ y
        · rw [if_pos (decide_eq_true (show Spec.geExt .left a.1 y from c')), List.map_cons, List.sum_cons]; linarith
        · rw [if_neg (by simpa using (show ¬ Spec.geExt .left a.1 y from c'))]; exact i1
    · simp only [Spec.totalWeight, List.map_cons, List.sum_cons] at i2 ⊢
      rw [i2, h2]
    · simpa using ⟨h3, fun c d hc => i3 (c, d) hc⟩
    · rw [h2] at h3
      simpa using ⟨h3, fun c d hc => i4 (c, d) hc⟩

/-- **C103** `weighted_tail_quantile`, in exact arithmetic, with the same weights, none negative: when both are numbers, the
second is not smaller.  The caches may have different sizes. -/
theorem C103_weighted_tail_quantile {V : Type} (H H' : HeapImpl ℕ) (side : Side) (nan nan' : Bool) (wt : V → K) {k k' : ℕ}
    (hk : 1 ≤ k) (hk' : 1 ≤ k') (x0 y0 : K) (v0 w0 : V) {h h' : List (Op (K × V) Unit)}
    (hh : List.Forall₂ (fun a b => a.1 ≤ b.1 ∧ a.2 = b.2 ∧ 0 ≤ wt a.2) (pushes h) (pushes h')) {p x y : K}
    (ex : wtailQuantile H side nan wt k x0 v0 h p = .val x) (ey : wtailQuantile H' side nan' wt k' y0 w0 h' p = .val y) :
    x ≤ y := by
  obtain ⟨b1, b2, b3, b4⟩ := weightBeyond_anti wt hh y
  have r := (C74_wtail_rank H side nan wt hk x0 v0 h b3 ex).2
  have r' := (C74_wtail_rank H' side nan' wt hk' y0 w0 h' b4 ey).2
  by_contra c
  have g := weight_step b3 (not_le.1 c)
  cases side with
  | left =>
    obtain ⟨r1, -⟩ := r
    obtain ⟨-, r2⟩ := r'
    rw [← b2] at r2
    linarith
  | right =>
    obtain ⟨r1, -⟩ := r
    obtain ⟨-, r2⟩ := r'
    rw [← b2] at r2
    linarith

/-! ## Where it fails -/

/-- **C103, rolling sums in floating point**: window 2, the samples 1, 1, 0 give the rolling sum 1; with the first raised
to 2⁵³ the second is lost when it is added and the rolling sum is 0. -/
theorem C103_rolling_fails :
    let f := Fl.ofK double
    Fl.val <$> (rollRun .lazy 2 0 [f 1, f 1, f 0]).sum = .val 1 ∧
      Fl.val <$> (rollRun .lazy 2 0 [f (2 ^ 53), f 1, f 0]).sum = .val 0 := by
  decide +kernel

/-- **C103, `sum_kahan`**: raising the first of four samples lowers the compensated sum. -/
theorem C103_kahan_fails :
    let f := Fl.ofK double
    (kahanRun id 0 [f (1 / 2 ^ 53), f (2 ^ 53 + 2), f (1 / 2 ^ 53), f (-1)]).sum.val = 2 ^ 53 + 2 ∧
      (kahanRun id 0 [f 1, f (2 ^ 53 + 2), f (1 / 2 ^ 53), f (-1)]).sum.val = 2 ^ 53 := by
  decide +kernel

/-- **C103, `p_square_quantile`**, in exact arithmetic: raising the first of seven samples from 1 to 2 lowers the estimate
of the median from 8/3 to 7/3. -/
theorem C103_p_square_fails :
    (psqQuantileSet (1 / 2)).answer (onlyPushes [(1 : ℚ), 3, 3, 1, 2, 4, 2]) () = .val (8 / 3) ∧
      (psqQuantileSet (1 / 2)).answer (onlyPushes [(2 : ℚ), 3, 3, 1, 2, 4, 2]) () = .val (7 / 3) := by
  decide +kernel

/-! ## Concrete cases -/

/-- Three samples and three that are not smaller. -/
example : List.Forall₂ (· ≤ ·) [Fl.ofK double (1 / 10), Fl.ofK double 3, Fl.ofK double (-2)]
    [Fl.ofK double (1 / 5), Fl.ofK double 3, Fl.ofK double 7] :=
  .cons (by decide +kernel) (.cons (by decide +kernel) (.cons (by decide +kernel) .nil))

example : List.Forall₂ (fun x y => 0 ≤ x ∧ x ≤ y) [Fl.ofK double (1 / 10), Fl.ofK double 3]
    [Fl.ofK double (1 / 5), Fl.ofK double 3] :=
  .cons (by decide +kernel) (.cons (by decide +kernel) .nil)

example : List.Forall₂ (fun a b : Fl double × Fl double => a.1 ≤ b.1 ∧ a.2 = b.2 ∧ 0 ≤ a.2)
    [(Fl.ofK double (1 / 10), Fl.ofK double (1 / 3)), (Fl.ofK double 3, Fl.ofK double 0)]
    [(Fl.ofK double (1 / 5), Fl.ofK double (1 / 3)), (Fl.ofK double 4, Fl.ofK double 0)] :=
  .cons (by decide +kernel) (.cons (by decide +kernel) .nil)

/-- The two medians of three weighted samples, the second stream raised. -/
example : wtailQuantile (V := ℚ) HeapImpl.simple .left true id 5 0 0 (onlyPushes [((1 : ℚ), 2), (4, 1), (2, 3)]) (1 / 2) = .val 2 ∧
    wtailQuantile (V := ℚ) HeapImpl.simple .left true id 5 0 0 (onlyPushes [((3 : ℚ), 2), (4, 1), (5, 3)]) (1 / 2) = .val 4 := by
  decide +kernel

/-- Two histories with an extraction at different points and different variates. -/
example : List.Forall₂ (· ≤ ·)
    ((pushes [Op.push (Fl.ofK double 1, 5), .query (), .push (Fl.ofK double 2, 6)]).map Prod.fst)
    ((pushes [Op.push (Fl.ofK double 3, 7), .push (Fl.ofK double 2, 8), .query ()]).map Prod.fst) :=
  .cons (by decide +kernel) (.cons (by decide +kernel) .nil)

end Acc
