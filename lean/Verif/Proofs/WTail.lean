import Verif.Model.WTail
import Verif.Props.TailEst
import Verif.Spec.Stats

/-! # Helper lemmas for the weighted tail estimators -/

set_option linter.unusedSectionVars false

namespace Acc

variable {K : Type} [Field K] [LinearOrder K] [IsStrictOrderedRing K] {V : Type}

theorem wtailLoop_found (e : Res (ℕ × K)) (T : K) (c : ℕ) (s : K) (ws : List K) {n : ℕ}
    (hn : n ≤ ws.length) (hlt : ∀ m < n, s + (ws.take m).sum < T) (hge : T ≤ s + (ws.take n).sum) :
    wtailLoop e T c s ws = .val (c + n, s + (ws.take n).sum) := by
  induction ws generalizing c s n with
  | nil =>
    have : n = 0 := by simpa using hn
    subst this
    simp only [List.take_nil, List.sum_nil, add_zero] at hge ⊢
    rw [wtailLoop, if_neg (not_lt.2 hge)]
  | cons w ws ih =>
    cases n with
    | zero =>
      simp only [List.take_zero, List.sum_nil, add_zero] at hge ⊢
      rw [wtailLoop, if_neg (not_lt.2 hge)]
    | succ n =>
      have h0 := hlt 0 (by omega)
      simp only [List.take_zero, List.sum_nil, add_zero] at h0
      rw [wtailLoop, if_pos h0, ih (n := n) (c + 1) (s + w) (by simpa using hn)
        (fun m hm => by simpa [add_assoc] using hlt (m + 1) (by omega))
        (by simpa [add_assoc] using hge)]
      simp only [List.take_succ_cons, List.sum_cons, add_assoc, Nat.add_comm 1 n]

theorem wtailLoop_exhausted (e : Res (ℕ × K)) (T : K) (c : ℕ) (s : K) (ws : List K)
    (hlt : ∀ m ≤ ws.length, s + (ws.take m).sum < T) : wtailLoop e T c s ws = e := by
  induction ws generalizing c s with
  | nil =>
    have := hlt 0 (by simp)
    simp only [List.take_nil, List.sum_nil, add_zero] at this
    rw [wtailLoop, if_pos this]
  | cons w ws ih =>
    have h0 := hlt 0 (by omega)
    simp only [List.take_zero, List.sum_nil, add_zero] at h0
    rw [wtailLoop, if_pos h0]
    exact ih _ _ fun m hm => by simpa [add_assoc] using hlt (m + 1) (by simpa using hm)

/-- Either some prefix of the weights reaches the threshold, and then there is a shortest one, or none does. -/
theorem prefix_cases (T : K) (ws : List K) :
    (∃ n ≤ ws.length, (∀ m < n, (ws.take m).sum < T) ∧ T ≤ (ws.take n).sum) ∨
    ∀ m ≤ ws.length, (ws.take m).sum < T := by
  classical
  by_cases h : ∃ n, n ≤ ws.length ∧ T ≤ (ws.take n).sum
  · left
    obtain ⟨h1, h2⟩ := Nat.find_spec h
    refine ⟨Nat.find h, h1, fun m hm => ?_, h2⟩
    have := Nat.find_min h hm
    rw [not_and, not_le] at this
    exact this (by omega)
  · right
    intro m hm
    by_contra hc
    exact h ⟨m, hm, not_lt.1 hc⟩

theorem sum_take_mono {ws : List K} (h0 : ∀ w ∈ ws, 0 ≤ w) {m n : ℕ} (h : m ≤ n) :
    (ws.take m).sum ≤ (ws.take n).sum := by
  have hn : ws.take n = ws.take m ++ (ws.take n).drop m := by
    conv_lhs => rw [← List.take_append_drop m (ws.take n)]
    rw [List.take_take, Nat.min_eq_left h]
  have : 0 ≤ ((ws.take n).drop m).sum := List.sum_nonneg fun w hw =>
    h0 w (List.mem_of_mem_take (List.mem_of_mem_drop hw))
  rw [hn, List.sum_append]
  linarith

theorem innerProduct_eq (init : K) {n : ℕ} (ps : List (K × K)) (hn : n ≤ ps.length) :
    innerProduct init n (ps.map Prod.fst) (ps.map Prod.snd)
      = .val (init + ((ps.take n).map fun p => p.2 * p.1).sum) := by
  induction ps generalizing init n with
  | nil =>
    have : n = 0 := by simpa using hn
    subst this
    simp [innerProduct]
  | cons p ps ih =>
    cases n with
    | zero => simp [innerProduct]
    | succ n =>
      simp only [List.map_cons, innerProduct, List.take_succ_cons, List.sum_cons]
      rw [ih _ (by simpa using hn)]
      congr 1
      ring

theorem vecInnerProduct_eq {d : ℕ} {n : ℕ} (ps : List (List K × K)) (f : ℕ → K)
    (hd : ∀ p ∈ ps, p.1.length = d) (hn : n ≤ ps.length) :
    vecInnerProduct ((List.range d).map f) n (ps.map Prod.fst) (ps.map Prod.snd)
      = .val ((List.range d).map fun j => f j + ((ps.take n).map fun p => p.2 * p.1.getD j 0).sum) := by
  induction ps generalizing f n with
  | nil =>
    have : n = 0 := by simpa using hn
    subst this
    simp [vecInnerProduct]
  | cons p ps ih =>
    cases n with
    | zero => simp [vecInnerProduct]
    | succ n =>
      simp only [List.map_cons, vecInnerProduct, List.take_succ_cons, List.sum_cons]
      rw [vecAdd_range (by simpa using hd p (by simp)), Res.val_bind,
        ih _ (fun q hq => hd q (by simp [hq])) (by simpa using hn)]
      congr 1
      apply List.map_congr_left
      intro j hj
      have hj' : j < p.1.length := by rw [hd p (by simp)]; exact List.mem_range.1 hj
      have : (p.1.map (· * p.2)).getD j 0 = p.2 * p.1.getD j 0 := by
        simp [List.getD, hj', mul_comm]
      rw [this]
      ring

/-- The three extractions in terms of one list of pairs. -/
theorem wtail_out {K : Type} [Arith K] [LinearOrder K] (H : HeapImpl ℕ) (side : Side) {k : ℕ} (hk : 1 ≤ k) (x0 : K) (v0 : V)
    (h : List (Op (K × V) Unit)) :
    ∃ (out D : List (K × V)), extractTail H side k x0 v0 h = .val (out.map Prod.fst) ∧
      extractTailVariate H side k x0 v0 h = .val (out.map Prod.snd) ∧
      (out ++ D).Perm (pushes h) ∧ (∀ d ∈ D, ∀ c ∈ out, Spec.geExt side c.1 d.1) ∧
      out.map Prod.fst = Spec.extremes side k ((pushes h).map Prod.fst) ∧
      out.Pairwise (fun a b => Spec.geExt side a.1 b.1) ∧
      (∀ (hasNaN : Bool) (wt : V → K) (p : K), wtailQuantile H side hasNaN wt k x0 v0 h p =
        wtailQuantileResult hasNaN (wtailThreshold side ((pushes h).map fun q => wt q.2) p)
          (out.map Prod.fst) (out.map fun q => wt q.2)) ∧
      (∀ (hasNaN : Bool) (wt : V → K) (p : K), wtailMean H side hasNaN wt k x0 v0 h p =
        wtailMeanResult hasNaN (wtailThreshold side ((pushes h).map fun q => wt q.2) p)
          (out.map Prod.fst) (out.map fun q => wt q.2)) := by
  obtain ⟨s, slots, hr, hi⟩ := tailRun_inv H side hk x0 v0 h
  obtain ⟨out, h1, h2, h3, h4, D, h5, h6⟩ := hi.result H
  refine ⟨out, D, ?_, ?_, h5, h6, ?_, h4, ?_, ?_⟩
  · simp only [extractTail, hr, Res.val_bind, h1]
  · simp only [extractTailVariate, hr, Res.val_bind, h2]
  · have hp := h5.map Prod.fst
    rw [List.map_append] at hp
    refine eq_extremes hp (by simpa using h3) (List.pairwise_map.mpr h4) ?_
    intro d hd c hc
    obtain ⟨d', hd', rfl⟩ := List.mem_map.mp hd
    obtain ⟨c', hc', rfl⟩ := List.mem_map.mp hc
    exact h6 d' hd' c' hc'
  · intro hasNaN wt p
    simp only [wtailQuantile, hr, Res.val_bind, h1, h2, List.map_map]
    rfl
  · intro hasNaN wt p
    simp only [wtailMean, hr, Res.val_bind, h1, h2, List.map_map]
    rfl

theorem wtailVariate_out {K : Type} [Arith K] [LinearOrder K] (H : HeapImpl ℕ) (side : Side) {k : ℕ} (hk : 1 ≤ k) (x0 : K)
    (v0 : List K × K)
    (h : List (Op (K × (List K × K)) Unit)) :
    ∃ (out D : List (K × (List K × K))), extractTail H side k x0 v0 h = .val (out.map Prod.fst) ∧
      extractTailVariate H side k x0 v0 h = .val (out.map Prod.snd) ∧
      (out ++ D).Perm (pushes h) ∧
      out.map Prod.fst = Spec.extremes side k ((pushes h).map Prod.fst) ∧
      (∀ (hasNaN : Bool) (p : K), wtailMean H side hasNaN Prod.snd k x0 v0 h p =
        wtailMeanResult hasNaN (wtailThreshold side ((pushes h).map fun q => q.2.2) p)
          (out.map Prod.fst) (out.map fun q => q.2.2)) ∧
      (∀ (relative hasNaN : Bool) (p : K), wtailVariateMeans H side relative hasNaN k x0 v0 h p =
        wtailVariateMeansResult relative hasNaN (wtailThreshold side ((pushes h).map fun q => q.2.2) p)
          (out.map Prod.fst) (out.map fun q => q.2.1) (out.map fun q => q.2.2)) := by
  obtain ⟨s, slots, hr, hi⟩ := tailRun_inv H side hk x0 v0 h
  obtain ⟨out, h1, h2, h3, h4, D, h5, h6⟩ := hi.result H
  refine ⟨out, D, ?_, ?_, h5, ?_, ?_, ?_⟩
  · simp only [extractTail, hr, Res.val_bind, h1]
  · simp only [extractTailVariate, hr, Res.val_bind, h2]
  · have hp := h5.map Prod.fst
    rw [List.map_append] at hp
    refine eq_extremes hp (by simpa using h3) (List.pairwise_map.mpr h4) ?_
    intro d hd c hc
    obtain ⟨d', hd', rfl⟩ := List.mem_map.mp hd
    obtain ⟨c', hc', rfl⟩ := List.mem_map.mp hc
    exact h6 d' hd' c' hc'
  · intro hasNaN p
    simp only [wtailMean, hr, Res.val_bind, h1, h2, List.map_map]
    rfl
  · intro relative hasNaN p
    simp only [wtailVariateMeans, hr, Res.val_bind, h1, h2, List.map_map]
    rfl

/-- Values of the two simple estimators when the first `n` cached weights are the shortest prefix reaching
the threshold. -/
theorem wtailMeanResult_found (hasNaN : Bool) {T : K} (out : List (K × K)) {n : ℕ} (hn : n ≤ out.length)
    (hlt : ∀ m < n, ((out.map Prod.snd).take m).sum < T) (hge : T ≤ ((out.map Prod.snd).take n).sum)
    (hT : 0 < T) :
    wtailMeanResult hasNaN T (out.map Prod.fst) (out.map Prod.snd) = .val (Spec.wmean (out.take n)) := by
  unfold wtailMeanResult
  rw [wtailLoop_found _ T 0 0 _ (n := n) (by simpa using hn) (by simpa using hlt) (by simpa using hge),
    Res.val_bind]
  simp only [zero_add]
  rw [innerProduct_eq _ _ hn, Res.val_bind, zero_add, fdiv_ne (by linarith)]
  rw [List.map_take] at *
  simp only [Spec.wmean, Spec.wtotal, List.map_take]

theorem wtailQuantileResult_found (hasNaN : Bool) {T : K} (out : List (K × K)) {n : ℕ}
    (hn : n < out.length) (hlt : ∀ m < n + 1, ((out.map Prod.snd).take m).sum < T)
    (hge : T ≤ ((out.map Prod.snd).take (n + 1)).sum) :
    wtailQuantileResult hasNaN T (out.map Prod.fst) (out.map Prod.snd) = .val out[n].1 := by
  unfold wtailQuantileResult
  rw [wtailLoop_found _ T 0 0 _ (n := n + 1) (by simpa using hn) (by simpa using hlt)
    (by simpa using hge), Res.val_bind]
  simp [hn]

end Acc
