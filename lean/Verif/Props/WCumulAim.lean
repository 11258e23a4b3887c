import Verif.Props.WPSquare

/-!
# C40: where the markers of the weighted cumulative distribution aim

`weighted_p_square_cumul_dist.hpp:153-157` computes the desired positions with `i - 1` although the markers are numbered
from 0: marker `i` of `b` aims at the share `(i - 1) / b`, in `p_square_cumul_dist.hpp:81` it is `i / b`.
-/

namespace Acc

open Spec

/-- **C40 fails in the middle, too** The samples 1, …, 20, each with weight 1, and four cells: the weighted distribution
function claims that a half of them lie below 14.6 and a quarter below 5.9, and its second point never leaves the second
sample.  Without weights the points are the quartiles. -/
theorem C40_aim_fails :
    (wpsqCumulSet 4).answer (onlyPushes ((List.range' 1 20).map fun i => ((i : ℚ), 1))) ()
      = .val [(1, .val (1 / 20)), (2, .val (1 / 10)), (6647 / 1120, .val (1 / 4)), (785633 / 53760, .val (1 / 2)),
          (20, .val (4 / 5))] ∧
    (psqCumulSet 4).answer (onlyPushes ((List.range' 1 20).map fun i => (i : ℚ))) ()
      = .val [(1, .val (1 / 20)), (5, .val (1 / 4)), (10, .val (1 / 2)), (15, .val (3 / 4)), (20, .val 1)] := by
  decide +kernel


variable {K : Type} [Field K] [LinearOrder K] [IsStrictOrderedRing K]

/-- What one iteration of the adjustment does to marker `i`, for any positions. -/
theorem psqAdjust1_facts {M : Markers K} {m i : ℕ} (hi : 1 ≤ i) (hm : i + 1 < m) (t : ℕ → K) {r : List K × List K}
    (e : psqAdjust1 (tab m t) (tab m M.q, tab m M.n) i = .val r) :
    r = (tab m M.q, tab m M.n) ∨ ∃ v s, r = (tab m (Function.update M.q i v), tab m (Function.update M.n i (M.n i + s))) ∧
      ((s = 1 ∧ 1 ≤ t i - M.n i ∧ 1 < M.n (i + 1) - M.n i) ∨
        (s = -1 ∧ t i - M.n i ≤ -1 ∧ M.n (i - 1) - M.n i < -1 ∧
          (M.q (i - 1) ≤ M.q i → M.q i ≤ M.q (i + 1) → M.n i < M.n (i + 1) → v ≤ M.q i))) := by
  unfold psqAdjust1 at e
  simp only [getAt_tab M.q (show i < m by omega), getAt_tab M.q hm,
    getAt_tab M.q (show i - 1 < m by omega), getAt_tab M.n (show i < m by omega), getAt_tab M.n hm,
    getAt_tab M.n (show i - 1 < m by omega), getAt_tab t (show i < m by omega), Res.val_bind] at e
  by_cases c : 1 ≤ t i - M.n i ∧ 1 < M.n (i + 1) - M.n i ∨
      t i - M.n i ≤ -1 ∧ M.n (i - 1) - M.n i < -1
  · rw [if_pos c] at e
    right
    have fin1 : ∀ (v s : K), (do
        let hs ← setAt (tab m M.q) i v
        let ns ← setAt (tab m M.n) i (M.n i + s)
        pure (hs, ns) : Res (List K × List K)) = .val r →
        r = (tab m (Function.update M.q i v), tab m (Function.update M.n i (M.n i + s))) := by
      intro v s h
      rw [setAt_tab M.q (show i < m by omega), Res.val_bind,
        setAt_tab M.n (show i < m by omega), Res.val_bind, Res.pure_eq, Res.val.injEq] at h
      exact h.symm
    by_cases hd : 0 < t i - M.n i
    · have c' : 1 ≤ t i - M.n i ∧ 1 < M.n (i + 1) - M.n i := by
        rcases c with c | c
        · exact c
        · exfalso; linarith [c.1]
      have hdp : M.n (i + 1) - M.n i ≠ 0 := by intro z; linarith [c'.2]
      simp only [if_pos hd, fdiv_ne hdp, Res.val_bind, Res.pure_eq] at e
      split at e
      · split at e
        · exact ⟨_, 1, fin1 _ 1 e, .inl ⟨rfl, c'⟩⟩
        · exact ⟨_, 1, fin1 _ 1 e, .inl ⟨rfl, c'⟩⟩
      · exact ⟨_, 1, fin1 _ 1 e, .inl ⟨rfl, c'⟩⟩
    · have c' : t i - M.n i ≤ -1 ∧ M.n (i - 1) - M.n i < -1 := by
        rcases c with c | c
        · exfalso; linarith [c.1]
        · exact c
      have hdm : M.n (i - 1) - M.n i ≠ 0 := by intro z; linarith [c'.2]
      have a2 : M.q (i - 1) ≤ M.q i → 0 ≤ (M.q (i - 1) - M.q i) / (M.n (i - 1) - M.n i) := fun h1 =>
        div_nonneg_of_nonpos (by linarith) (by linarith [c'.2])
      simp only [if_neg hd, fdiv_ne hdm, Res.val_bind, Res.pure_eq] at e
      split at e
      · rename_i v hv
        split at e
        · refine ⟨_, -1, fin1 _ (-1) e, .inr ⟨rfl, c'.1, c'.2, fun h1 h2 h3 => ?_⟩⟩
          have hdp : M.n (i + 1) - M.n i ≠ 0 := by intro z; linarith
          have hpm : M.n (i + 1) - M.n i - (M.n (i - 1) - M.n i) ≠ 0 := by intro z; linarith [c'.2]
          simp only [fdiv_ne hdp, fdiv_ne hpm, Res.val_bind, Res.val.injEq] at hv
          have a1 : 0 ≤ (M.q (i + 1) - M.q i) / (M.n (i + 1) - M.n i) := div_nonneg (by linarith) (by linarith)
          have a3 : (-1 : K) / (M.n (i + 1) - M.n i - (M.n (i - 1) - M.n i)) ≤ 0 :=
            div_nonpos_of_nonpos_of_nonneg (by linarith) (by linarith [c'.2])
          have a4 : 0 ≤ (-1 - (M.n (i - 1) - M.n i)) * ((M.q (i + 1) - M.q i) / (M.n (i + 1) - M.n i))
              + (M.n (i + 1) - M.n i - -1) * ((M.q (i - 1) - M.q i) / (M.n (i - 1) - M.n i)) :=
            add_nonneg (mul_nonneg (by linarith [c'.2]) a1) (mul_nonneg (by linarith) (a2 h1))
          have a5 := mul_nonpos_of_nonpos_of_nonneg a3 a4
          rw [← hv]
          linarith
        · exact ⟨_, -1, fin1 _ (-1) e, .inr ⟨rfl, c'.1, c'.2, fun h1 _ _ => by linarith [a2 h1]⟩⟩
      · exact ⟨_, -1, fin1 _ (-1) e, .inr ⟨rfl, c'.1, c'.2, fun h1 _ _ => by linarith [a2 h1]⟩⟩
  · rw [if_neg c, Res.pure_eq, Res.val.injEq] at e
    exact .inl e.symm

/-- The lowest three positions are increasing and the second height is at most `c`. -/
structure Spec.Markers.Low (M : Markers K) (c : K) : Prop where
  n0 : 0 < M.n 0
  n1 : M.n 0 < M.n 1
  n2 : M.n 1 < M.n 2
  q1 : M.q 1 ≤ c

theorem psqAdjust_low {M : Markers K} {m : ℕ} (hm : 4 ≤ m) (h : QOrd m M.q) {c : K} (hl : M.Low c) {t : ℕ → K}
    (ht : t 1 = M.n 0) :
    ∃ M' : Markers K, psqAdjust (tab m t) (tab m M.q, tab m M.n) = .val (tab m M'.q, tab m M'.n) ∧ QOrd m M'.q ∧ M'.Low c := by
  unfold psqAdjust
  simp only [tab_length]
  have hin : ∀ i ∈ List.range' 1 (m - 2), 1 ≤ i ∧ i + 1 < m := fun i hi => mem_inner hi
  revert hin
  generalize List.range' 1 (m - 2) = l
  intro hin
  induction l generalizing M with
  | nil => exact ⟨M, rfl, h, hl⟩
  | cons i l ih =>
    have hi := hin i (by simp)
    obtain ⟨M1, e1, q1, o1⟩ := psqAdjust1_any h hi.1 hi.2 t
    have key : M1.Low c ∧ M1.n 0 = M.n 0 := by
      have k0 := o1 0 (by omega)
      refine ⟨?_, k0.2⟩
      rcases psqAdjust1_facts hi.1 hi.2 t e1 with g | ⟨v, s, g, gs⟩
      · rw [Prod.mk.injEq] at g
        have gq := tab_inj g.1
        have gn := tab_inj g.2
        exact ⟨by rw [gn 0 (by omega)]; exact hl.n0, by rw [gn 0 (by omega), gn 1 (by omega)]; exact hl.n1,
          by rw [gn 1 (by omega), gn 2 (by omega)]; exact hl.n2, by rw [gq 1 (by omega)]; exact hl.q1⟩
      · rw [Prod.mk.injEq] at g
        have gq := tab_inj g.1
        have gn := tab_inj g.2
        rcases Nat.lt_or_ge i 3 with i3 | i3
        · obtain rfl | rfl : i = 1 ∨ i = 2 := by omega
          · have n1' : M1.n 1 = M.n 1 + s := by rw [gn 1 (by omega), Function.update_self]
            have v1 : M1.q 1 = v := by rw [gq 1 (by omega), Function.update_self]
            have k2 := o1 2 (by omega)
            rcases gs with ⟨-, g1, -⟩ | ⟨rfl, g1, g2, g3⟩
            · exfalso; rw [ht] at g1; linarith [hl.n1]
            · have g2' : M.n 0 - M.n 1 < -1 := g2
              refine ⟨by rw [k0.2]; exact hl.n0, by rw [k0.2, n1']; linarith, by rw [n1', k2.2]; linarith [hl.n2], ?_⟩
              rw [v1]
              exact (g3 (h 0 (by omega)) (h 1 (by omega)) hl.n2).trans hl.q1
          · have n2' : M1.n 2 = M.n 2 + s := by rw [gn 2 (by omega), Function.update_self]
            have k1 := o1 1 (by omega)
            refine ⟨by rw [k0.2]; exact hl.n0, by rw [k0.2, k1.2]; exact hl.n1, ?_, by rw [k1.1]; exact hl.q1⟩
            rw [k1.2, n2']
            rcases gs with ⟨rfl, -, -⟩ | ⟨rfl, -, g2, -⟩
            · linarith [hl.n2]
            · have g2' : M.n 1 - M.n 2 < -1 := g2
              linarith
        · have k1 := o1 1 (by omega)
          have k2 := o1 2 (by omega)
          exact ⟨by rw [k0.2]; exact hl.n0, by rw [k0.2, k1.2]; exact hl.n1, by rw [k1.2, k2.2]; exact hl.n2,
            by rw [k1.1]; exact hl.q1⟩
    obtain ⟨M2, e2, q2, l2⟩ := ih q1 key.1 (by rw [ht, key.2]) (fun j hj => hin j (by simp [hj]))
    exact ⟨M2, by rw [foldRes, e1, Res.val_bind, e2], q2, l2⟩

theorem observe_low {M : Markers K} {m : ℕ} (hm : 4 ≤ m) (h : QOrd m M.q) {c : K} (hl : M.Low c) (x : K) {w : K}
    (hw : 0 < w) : (observe m x w M).Low c := by
  have hO := observe_ord (M := ⟨M.q, fun i => if i ≤ 2 then M.n i else M.n 2 + i⟩) (m := m) (by omega) x hw
    ⟨h, fun i _ => by
      rcases Nat.lt_or_ge i 3 with i3 | i3
      · obtain rfl | rfl | rfl : i = 0 ∨ i = 1 ∨ i = 2 := by omega
        · simpa using hl.n1
        · simpa using hl.n2
        · norm_num
      · simp only [if_neg (show ¬ i ≤ 2 by omega), if_neg (show ¬ i + 1 ≤ 2 by omega)]
        push_cast; linarith⟩ (by simpa using hl.n0)
  have h1 := hO.n 0 (by omega)
  have h2 := hO.n 1 (by omega)
  simp only [observe] at h1 h2
  refine ⟨?_, ?_, ?_, ?_⟩
  · show 0 < (observe m x w M).n 0
    simp only [observe, if_true]
    by_cases c : x < M.q 0
    · rw [if_pos c]; exact hw
    · rw [if_neg c]; exact hl.n0
  · simpa [observe] using h1
  · simpa [observe] using h2
  · simpa [observe, show ¬ 1 = m - 1 by omega] using hl.q1

theorem wcumulDes_one {b : ℕ} (hb : 1 ≤ b) (n0 W : K) : ∃ t : ℕ → K, wpsqCumulDes b n0 W = tab (b + 1) t ∧ t 1 = n0 := by
  obtain ⟨t, ht⟩ := wcumulDes_eq b n0 W
  refine ⟨t, ht, ?_⟩
  obtain ⟨b, rfl⟩ : ∃ c, b = c + 1 := ⟨b - 1, by omega⟩
  have e : (wpsqCumulDes (b + 1) n0 W)[1]? = (tab (b + 1 + 1) t)[1]? := by rw [ht]
  rw [List.getElem?_eq_getElem (l := tab _ _) (by simp), tab_getElem] at e
  simp [wpsqCumulDes, List.range'_succ] at e
  exact e.symm

theorem wStart_low {b : ℕ} (hb : 3 ≤ b) {ps : List (K × K)} (hl : ps.length = b + 1) (hw : ∀ q ∈ ps, 0 < q.2) :
    (wStart b (selSort (b + 1) ps)).Low ((wStart b (selSort (b + 1) ps)).q 1) := by
  obtain ⟨hp, -⟩ := selSort_spec (b + 1) ps hl
  have hw' : ∀ q ∈ selSort (b + 1) ps, 0 < q.2 := fun q hq => hw q (hp.mem_iff.1 hq)
  have hlen : (selSort (b + 1) ps).length = b + 1 := by rw [hp.length_eq, hl]
  generalize selSort (b + 1) ps = l at *
  match l, hlen with
  | [], h | [_], h | [_, _], h => simp at h; try omega
  | a :: a' :: a'' :: l, _ =>
    have w0 := hw' a (by simp)
    have w1 := hw' a' (by simp)
    have w2 := hw' a'' (by simp)
    refine ⟨?_, ?_, ?_, le_rfl⟩ <;>
      simp [wStart, pTotal, show 0 < b by omega, show 1 < b by omega, show 2 < b by omega] <;> linarith

theorem wcumulRun_low {b : ℕ} (hb : 3 ≤ b) {ps : List (K × K)} (hl : ps.length = b + 1) (qs : List (K × K))
    (hw : ∀ q ∈ ps ++ qs, 0 < q.2) :
    ∃ s, wpsqRun (b + 1) b (fun n0 W => .val (wpsqCumulDes b n0 W)) (ps ++ qs) = .val s ∧ s.cnt = (ps ++ qs).length ∧
      ∃ M : Markers K, s.heights = tab (b + 1) M.q ∧ s.pos = tab (b + 1) M.n ∧ QOrd (b + 1) M.q ∧
        M.Low ((wStart b (selSort (b + 1) ps)).q 1) := by
  induction qs using List.reverseRecOn with
  | nil =>
    rw [List.append_nil] at hw ⊢
    obtain ⟨s, e, W⟩ := wpsqRun_wf (m := b + 1) (summed := b) (by omega) (by omega)
      (desired := fun n0 W => .val (wpsqCumulDes b n0 W))
      (fun n0 W => by obtain ⟨t, ht⟩ := wcumulDes_eq b n0 W; exact ⟨t, by rw [ht]⟩) ps
    obtain ⟨h1, h2⟩ := W.start hl
    exact ⟨s, e, W.cnt, _, h1, h2, (wStart_good (by omega) hl).1, wStart_low hb hl hw⟩
  | append_singleton qs p ih =>
    obtain ⟨s, e, hc, M, h1, h2, hq, hM⟩ := ih fun q hq => hw q (by
      rw [← List.append_assoc]; exact List.mem_append_left _ hq)
    have hp : 0 < p.2 := hw p (by simp)
    obtain ⟨t, ht, t1⟩ := wcumulDes_one (show 1 ≤ b by omega) ((observe (b + 1) p.1 p.2 M).n 0) (s.wsum + p.2)
    obtain ⟨M', e', q', l'⟩ := psqAdjust_low (show 4 ≤ b + 1 by omega) (observe_qord (by omega) p.1 p.2 hq)
      (observe_low (show 4 ≤ b + 1 by omega) hq hM p.1 hp) t1
    refine ⟨⟨s.cnt + 1, s.wsum + p.2, tab (b + 1) M'.q, tab (b + 1) M'.n⟩, ?_, ?_, M', rfl, rfl, q', l'⟩
    · rw [← List.append_assoc, wpsqRun_snoc, e, Res.val_bind,
        wpsqPush_later (by omega) hq p (by rw [hc, List.length_append]; omega) h1 h2]
      simp only [Res.val_bind, ht, e', Res.pure_eq]
    · show s.cnt + 1 = _
      rw [hc]; simp; omega

/-- **C40 fails in the middle, always** Three or more cells, positive weights: the second point of the distribution function
never rises above the second smallest of the first `b + 1` samples, however many samples follow and wherever they lie. -/
theorem C40_second_point {b : ℕ} (hb : 3 ≤ b) (h : List (Op (K × K) Unit)) (hn : b + 1 ≤ (pushes h).length)
    (hw : ∀ q ∈ pushes h, 0 < q.2) {c : K}
    (hc : 2 ≤ ((pushes h).take (b + 1)).countP fun q => decide (q.1 ≤ c)) :
    ∃ (pts : List (K × Res K)) (x : K), (wpsqCumulSet b).answer h () = .val pts ∧ (pts.map Prod.fst)[1]? = some x ∧ x ≤ c := by
  obtain ⟨s, e, I⟩ := wpsqCumul_exec (show 0 < b by omega) h
  obtain ⟨s', r, eq, -, -, hr⟩ := wpsqCumul_query I
  have hl : ((pushes h).take (b + 1)).length = b + 1 := by rw [List.length_take]; omega
  obtain ⟨s1, e1, -, M, h1, h2, -, hM⟩ := wcumulRun_low hb hl ((pushes h).drop (b + 1))
    (by rw [List.take_append_drop]; exact hw)
  rw [List.take_append_drop, I.run, Res.val.injEq] at e1
  subst e1
  have hlen := wpsq_len I.wf
  rw [psqHist_any (by rw [hlen.1, hlen.2]), Res.val.injEq] at hr
  refine ⟨r, M.q 1, ?_, ?_, hM.q1.trans ?_⟩
  · unfold RMachine.answer
    rw [e, Res.val_bind, eq, Res.val_bind, Res.pure_eq]
  · rw [← hr, hlen.1, List.map_map, List.getElem?_map, List.getElem?_range (by omega)]
    simp [h1, tab, show 1 < b + 1 by omega]
  · obtain ⟨hp, hs⟩ := selSort_spec (b + 1) _ hl
    rw [← hp.countP_eq] at hc
    have hlen' : (selSort (b + 1) ((pushes h).take (b + 1))).length = b + 1 := by rw [hp.length_eq, hl]
    generalize selSort (b + 1) ((pushes h).take (b + 1)) = l at *
    match l, hlen' with
    | [], hx | [_], hx => simp at hx; try omega
    | a :: a' :: l, _ =>
      show a'.1 ≤ c
      by_contra g
      rw [List.pairwise_cons, List.pairwise_cons] at hs
      have : l.countP (fun q => decide (q.1 ≤ c)) = 0 := by
        rw [List.countP_eq_zero]
        intro q hq
        have := hs.2.1 q hq
        simp only [decide_eq_true_eq]
        exact fun z => g (this.trans z)
      rw [List.countP_cons, List.countP_cons, this] at hc
      simp [g] at hc
      split at hc <;> omega

/-- The samples 1, …, 20 again: two of the first five are at most 2, so the second point stays at or below 2. -/
example : 2 ≤ ((pushes (onlyPushes (Q := Unit) ((List.range' 1 20).map fun i => ((i : ℚ), (1 : ℚ))))).take 5).countP
    fun q => decide (q.1 ≤ 2) := by decide +kernel

end Acc
