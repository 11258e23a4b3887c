import Verif.Proofs.WTail
import Verif.Proofs.TailMap

/-!
# Properties of the weighted tail estimators (C37, C38; share of C10, C28, C35, C36, C54, C55, C56)
-/

set_option linter.unusedSectionVars false

namespace Acc

variable {K : Type} [Field K] [LinearOrder K] [IsStrictOrderedRing K] {V : Type}

/-- The weight the estimators look for: `W p` on the left, `W (1 - p)` on the right. -/
def Spec.tailWeight (side : Side) (W p : K) : K :=
  match side with
  | .left => W * p
  | .right => W * (1 - p)

/-- Total weight of the pushed samples. -/
def Spec.totalWeight (wt : V → K) (ps : List (K × V)) : K := (ps.map fun q => wt q.2).sum

/-- Total weight of the samples at least as extreme as `x`. -/
def Spec.weightBeyond (side : Side) (wt : V → K) (ps : List (K × V)) (x : K) : K :=
  Spec.totalWeight wt (ps.filter fun q => decide (Spec.geExt side q.1 x))

/-- Total weight of the samples strictly more extreme than `x`. -/
def Spec.weightStrictlyBeyond (side : Side) (wt : V → K) (ps : List (K × V)) (x : K) : K :=
  Spec.totalWeight wt (ps.filter fun q => decide (Spec.gtExt side q.1 x))

theorem wtailThreshold_sum (side : Side) (ws : List K) (p : K) :
    wtailThreshold side ws p = ws.sum * tailLevel side p := by
  unfold wtailThreshold
  rw [List.sum_eq_foldl]

theorem wtailThreshold_eq (side : Side) (wt : V → K) (ps : List (K × V)) (p : K) :
    wtailThreshold side (ps.map fun q => wt q.2) p = Spec.tailWeight side (Spec.totalWeight wt ps) p := by
  rw [wtailThreshold_sum]
  cases side <;> rfl

theorem totalWeight_append (wt : V → K) (a b : List (K × V)) :
    Spec.totalWeight wt (a ++ b) = Spec.totalWeight wt a + Spec.totalWeight wt b := by
  simp [Spec.totalWeight]

theorem totalWeight_nonneg {wt : V → K} {l : List (K × V)} (hw : ∀ q ∈ l, 0 ≤ wt q.2) :
    0 ≤ Spec.totalWeight wt l := by
  apply List.sum_nonneg
  intro w h
  obtain ⟨q, hq, rfl⟩ := List.mem_map.1 h
  exact hw q hq

theorem totalWeight_filter_le {wt : V → K} {l : List (K × V)} (hw : ∀ q ∈ l, 0 ≤ wt q.2)
    (P : K × V → Bool) : Spec.totalWeight wt (l.filter P) ≤ Spec.totalWeight wt l := by
  induction l with
  | nil => simp
  | cons a l ih =>
    have h1 := ih fun q hq => hw q (by simp [hq])
    have h2 := hw a (by simp)
    by_cases hP : P a = true
    · simp only [List.filter_cons, hP, if_true, Spec.totalWeight, List.map_cons, List.sum_cons] at *
      linarith
    · simp only [List.filter_cons, hP, Spec.totalWeight, List.map_cons, List.sum_cons] at *
      simp only [Bool.false_eq_true, if_false]
      linarith

theorem totalWeight_perm {wt : V → K} {a b : List (K × V)} (h : a.Perm b) :
    Spec.totalWeight wt a = Spec.totalWeight wt b := (h.map _).sum_eq

/-- The weights of the first `n` cached pairs. -/
theorem take_weights (wt : V → K) (l : List (K × V)) (n : ℕ) :
    ((l.map fun q => wt q.2).take n).sum = Spec.totalWeight wt (l.take n) := by
  rw [← List.map_take]; rfl

theorem pairs_fst (wt : V → K) (l : List (K × V)) :
    (l.map fun q => (q.1, wt q.2)).map Prod.fst = l.map Prod.fst := by simp

theorem pairs_snd (wt : V → K) (l : List (K × V)) :
    (l.map fun q => (q.1, wt q.2)).map Prod.snd = l.map fun q => wt q.2 := by simp

theorem filter_split {α : Type} (P : α → Bool) (l : List α) (n : ℕ) :
    l.filter P = (l.take n).filter P ++ (l.drop n).filter P := by
  rw [← List.filter_append, List.take_append_drop]

/-- A list of pairs in order of extremity, the others being less extreme: its first `n + 1` pairs are at least as extreme as
the pair number `n`, and all that are strictly more extreme are among the first `n`. -/
theorem beyond_of_prefix {side : Side} {wt : V → K} {ps out D : List (K × V)} (hw : ∀ q ∈ ps, 0 ≤ wt q.2)
    (hp : (out ++ D).Perm ps) (hD : ∀ d ∈ D, ∀ c ∈ out, Spec.geExt side c.1 d.1)
    (hs : out.Pairwise fun a b => Spec.geExt side a.1 b.1) {n : ℕ} (hn : n < out.length) :
    Spec.totalWeight wt (out.take (n + 1)) ≤ Spec.weightBeyond side wt ps out[n].1 ∧
      Spec.weightStrictlyBeyond side wt ps out[n].1 ≤ Spec.totalWeight wt (out.take n) := by
  have hwo : ∀ q ∈ out, 0 ≤ wt q.2 := fun q hq => hw q (hp.mem_iff.1 (List.mem_append_left _ hq))
  have hwD : ∀ q ∈ D, 0 ≤ wt q.2 := fun q hq => hw q (hp.mem_iff.1 (List.mem_append_right _ hq))
  constructor
  · unfold Spec.weightBeyond
    rw [← totalWeight_perm (hp.filter _), List.filter_append, totalWeight_append]
    have h1 : 0 ≤ Spec.totalWeight wt (D.filter fun q => decide (Spec.geExt side q.1 out[n].1)) :=
      totalWeight_nonneg fun q hq => hwD q (List.mem_of_mem_filter hq)
    have h2 : Spec.totalWeight wt (out.take (n + 1))
        ≤ Spec.totalWeight wt (out.filter fun q => decide (Spec.geExt side q.1 out[n].1)) := by
      have hfil : (out.take (n + 1)).filter (fun q => decide (Spec.geExt side q.1 out[n].1))
          = out.take (n + 1) := by
        rw [List.filter_eq_self]
        intro q hq
        obtain ⟨i, hi, rfl⟩ := List.mem_iff_getElem.1 hq
        rw [List.length_take] at hi
        rw [List.getElem_take, decide_eq_true_eq]
        rcases Nat.lt_or_eq_of_le (show i ≤ n by omega) with hlt | heq
        · exact List.pairwise_iff_getElem.mp hs i n (by omega) (by omega) hlt
        · subst heq; cases side <;> simp [Spec.geExt]
      rw [filter_split _ out (n + 1), totalWeight_append, hfil]
      have : 0 ≤ Spec.totalWeight wt
          ((out.drop (n + 1)).filter fun q => decide (Spec.geExt side q.1 out[n].1)) :=
        totalWeight_nonneg fun q hq => hwo q (List.mem_of_mem_drop (List.mem_of_mem_filter hq))
      linarith
    linarith
  · unfold Spec.weightStrictlyBeyond
    rw [← totalWeight_perm (hp.filter _), List.filter_append, totalWeight_append]
    have hD0 : D.filter (fun q => decide (Spec.gtExt side q.1 out[n].1)) = [] := by
      rw [List.filter_eq_nil_iff]
      intro d hd
      have := hD d hd out[n] (List.getElem_mem _)
      rw [decide_eq_true_eq]
      cases side <;> simp only [Spec.geExt, Spec.gtExt] at * <;> exact not_lt.2 this
    have hd0 : (out.drop n).filter (fun q => decide (Spec.gtExt side q.1 out[n].1)) = [] := by
      rw [List.filter_eq_nil_iff]
      intro d hd
      obtain ⟨i, hi, rfl⟩ := List.mem_iff_getElem.1 hd
      rw [List.length_drop] at hi
      rw [List.getElem_drop, decide_eq_true_eq]
      have hge' : Spec.geExt side out[n].1 (out[n + i]'(by omega)).1 := by
        rcases Nat.eq_zero_or_pos i with rfl | hi0
        · cases side <;> simp [Spec.geExt]
        · exact List.pairwise_iff_getElem.mp hs n (n + i) (by omega) (by omega) (by omega)
      cases side <;> simp only [Spec.geExt, Spec.gtExt] at * <;> exact not_lt.2 hge'
    have hsplit : out.filter (fun q => decide (Spec.gtExt side q.1 out[n].1))
        = (out.take n).filter (fun q => decide (Spec.gtExt side q.1 out[n].1)) := by
      rw [filter_split _ out n, hd0, List.append_nil]
    rw [hD0, hsplit]
    have := totalWeight_filter_le (wt := wt) (l := out.take n)
      (fun q hq => hwo q (List.mem_of_mem_take hq))
      (fun q => decide (Spec.gtExt side q.1 out[n].1))
    simpa [Spec.totalWeight] using this

section C37
variable (H : HeapImpl ℕ) (side : Side) (hasNaN : Bool) {k : ℕ} (x0 : K) (v0 : V)
  (h : List (Op (K × V) Unit)) {p : K} {wt : V → K}

/-- **C37** For non-negative weights and a positive share of the total weight: if the weights listed by
`tail_weights(acc)` add up to at least that share, the weighted tail quantile is the cached sample at which
the accumulated weight, coming from the most extreme sample, reaches it: samples at least as extreme carry
the share, strictly more extreme ones do not. -/
theorem C37_quantile (hk : 1 ≤ k) (hw : ∀ q ∈ pushes h, 0 ≤ wt q.2)
    (hT : 0 < Spec.tailWeight side (Spec.totalWeight wt (pushes h)) p) {v : List V}
    (hv : extractTailVariate H side k x0 v0 h = .val v)
    (hc : Spec.tailWeight side (Spec.totalWeight wt (pushes h)) p ≤ (v.map wt).sum) :
    ∃ x ∈ (pushes h).map Prod.fst, wtailQuantile H side hasNaN wt k x0 v0 h p = .val x ∧
      Spec.tailWeight side (Spec.totalWeight wt (pushes h)) p
        ≤ Spec.weightBeyond side wt (pushes h) x ∧
      Spec.weightStrictlyBeyond side wt (pushes h) x
        < Spec.tailWeight side (Spec.totalWeight wt (pushes h)) p := by
  obtain ⟨out, D, ht, hv', hp, hD, hex, hs, hq, -⟩ := wtail_out H side hk x0 v0 h
  rw [hq, wtailThreshold_eq]
  rw [hv, Res.val.injEq] at hv'
  subst hv'
  generalize Spec.tailWeight side (Spec.totalWeight wt (pushes h)) p = T at *
  rcases prefix_cases T (out.map fun q => wt q.2) with ⟨n, hn, hlt, hge⟩ | hall
  · cases n with
    | zero => simp at hge; linarith
    | succ n =>
      rw [List.length_map] at hn
      refine ⟨out[n].1, ?_, ?_, ?_, ?_⟩
      · exact List.mem_map.2 ⟨out[n], hp.mem_iff.1 (List.mem_append_left _ (List.getElem_mem _)), rfl⟩
      · have := wtailQuantileResult_found (T := T) hasNaN (out.map fun q => (q.1, wt q.2)) (n := n)
          (by simpa using hn) (by rw [pairs_snd]; exact hlt) (by rw [pairs_snd]; exact hge)
        rw [pairs_fst, pairs_snd] at this
        rw [this]
        simp
      · refine hge.trans ?_
        rw [take_weights]
        exact (beyond_of_prefix hw hp hD hs hn).1
      · have hlt' := hlt n (by omega)
        rw [take_weights] at hlt'
        exact lt_of_le_of_lt (beyond_of_prefix hw hp hD hs hn).2 hlt'
  · have := hall _ le_rfl
    rw [List.take_length] at this
    rw [List.map_map] at hc
    exact absurd hc (not_le.2 this)

omit [IsStrictOrderedRing K] in
/-- The two inequalities of `C37_quantile` determine the value, even among equal samples. -/
theorem weighted_quantile_unique [IsStrictOrderedRing K] {ps : List (K × V)} (hw : ∀ q ∈ ps, 0 ≤ wt q.2)
    {T x y : K}
    (hx1 : T ≤ Spec.weightBeyond side wt ps x) (hx2 : Spec.weightStrictlyBeyond side wt ps x < T)
    (hy1 : T ≤ Spec.weightBeyond side wt ps y) (hy2 : Spec.weightStrictlyBeyond side wt ps y < T) :
    x = y := by
  have key : ∀ a b : K, Spec.gtExt side a b →
      Spec.weightBeyond side wt ps a ≤ Spec.weightStrictlyBeyond side wt ps b := by
    intro a b hab
    unfold Spec.weightBeyond Spec.weightStrictlyBeyond
    have : ps.filter (fun q => decide (Spec.geExt side q.1 a))
        = (ps.filter fun q => decide (Spec.gtExt side q.1 b)).filter
            (fun q => decide (Spec.geExt side q.1 a)) := by
      rw [List.filter_filter]
      apply List.filter_congr
      intro q _
      by_cases h : Spec.geExt side q.1 a
      · have h2 : Spec.gtExt side q.1 b := by
          cases side <;> simp only [Spec.geExt, Spec.gtExt] at * <;> order
        simp [h, h2]
      · simp [h]
    rw [this]
    exact totalWeight_filter_le (fun q hq => hw q (List.mem_of_mem_filter hq)) _
  by_contra hne
  rcases lt_or_gt_of_ne hne with hlt | hgt
  · cases side
    · have := key x y hlt; linarith
    · have := key y x hlt; linarith
  · cases side
    · have := key y x hgt; linarith
    · have := key x y hgt; linarith

/-- **C37** If the cached weights do not add up to the share: NaN or an exception, for the quantile and
for the tail mean. -/
theorem C37_insufficient (hk : 1 ≤ k) (hw : ∀ q ∈ pushes h, 0 ≤ wt q.2) {v : List V}
    (hv : extractTailVariate H side k x0 v0 h = .val v)
    (hc : (v.map wt).sum < Spec.tailWeight side (Spec.totalWeight wt (pushes h)) p) :
    wtailQuantile H side hasNaN wt k x0 v0 h p = (if hasNaN then .nonfinite else .thrown) ∧
    wtailMean H side hasNaN wt k x0 v0 h p = (if hasNaN then .nonfinite else .thrown) := by
  obtain ⟨out, D, ht, hv', hp, -, -, -, hq, hm⟩ := wtail_out H side hk x0 v0 h
  rw [hq, hm, wtailThreshold_eq]
  rw [hv, Res.val.injEq] at hv'
  subst hv'
  have hwo : ∀ w ∈ (out.map fun q => wt q.2), 0 ≤ w := by
    intro w hw'
    obtain ⟨q, hq, rfl⟩ := List.mem_map.1 hw'
    exact hw q (hp.mem_iff.1 (List.mem_append_left _ hq))
  rw [List.map_map] at hc
  have hall : ∀ m ≤ (out.map fun q => wt q.2).length, 0 + ((out.map fun q => wt q.2).take m).sum
      < Spec.tailWeight side (Spec.totalWeight wt (pushes h)) p := by
    intro m hm'
    have := sum_take_mono hwo hm'
    rw [List.take_length] at this
    rw [zero_add]
    exact lt_of_le_of_lt this hc
  constructor
  · unfold wtailQuantileResult
    rw [wtailLoop_exhausted _ _ _ _ _ hall]
    cases hasNaN <;> rfl
  · unfold wtailMeanResult
    rw [wtailLoop_exhausted _ _ _ _ _ hall]
    cases hasNaN <;> rfl

/-- **C37** When the cache holds the whole stream it is always sufficient. -/
theorem C37_cache_large (hk : 1 ≤ k) (hkn : (pushes h).length ≤ k) (hw : ∀ q ∈ pushes h, 0 ≤ wt q.2)
    (h0 : 0 ≤ p) (h1 : p ≤ 1) {v : List V} (hv : extractTailVariate H side k x0 v0 h = .val v) :
    Spec.tailWeight side (Spec.totalWeight wt (pushes h)) p ≤ (v.map wt).sum := by
  obtain ⟨out, D, ht, hv', hp, -, hex, -⟩ := wtail_out H side hk x0 v0 h
  rw [hv, Res.val.injEq] at hv'
  subst hv'
  have hl := congrArg List.length hex
  have hl2 := (C15_extremes side k ((pushes h).map Prod.fst)).1
  rw [hl2, List.length_map, List.length_map, Nat.min_eq_right hkn] at hl
  have hl3 := hp.length_eq
  have hD : D = [] := by
    rw [List.length_append] at hl3
    exact List.length_eq_zero_iff.1 (by omega)
  rw [hD, List.append_nil] at hp
  have hW : (List.map wt (List.map Prod.snd out)).sum = Spec.totalWeight wt (pushes h) := by
    rw [← totalWeight_perm hp, List.map_map]; rfl
  rw [hW]
  have := totalWeight_nonneg hw
  cases side <;> simp only [Spec.tailWeight] <;> nlinarith

/-- **C37/C56 fails at the edge** A share of zero (`p = 0` on the left, `p = 1` on the right, or no sample
at all) makes the quantile read before the beginning of the cache; the tail mean is 0/0. -/
theorem C37_zero_ub (hk : 1 ≤ k)
    (hT : Spec.tailWeight side (Spec.totalWeight wt (pushes h)) p ≤ 0) :
    wtailQuantile H side hasNaN wt k x0 v0 h p = .ub ∧
    wtailMean H side hasNaN wt k x0 v0 h p = .nonfinite := by
  obtain ⟨out, D, ht, hv', hp, -, -, -, hq, hm⟩ := wtail_out H side hk x0 v0 h
  rw [hq, hm, wtailThreshold_eq]
  constructor
  · unfold wtailQuantileResult
    rw [wtailLoop_found _ _ 0 0 _ (n := 0) (by omega) (by omega) (by simpa using hT)]
    rfl
  · unfold wtailMeanResult
    rw [wtailLoop_found _ _ 0 0 _ (n := 0) (by omega) (by omega) (by simpa using hT)]
    simp [innerProduct]

/-- **C37** The weighted tail mean is the weighted mean of a shortest initial part `sel` of the cached
pairs (most extreme sample first) whose weight reaches the share.  Any sign of weights. -/
theorem C37_mean (hk : 1 ≤ k)
    (hT : 0 < Spec.tailWeight side (Spec.totalWeight wt (pushes h)) p) {v : List V}
    (hv : extractTailVariate H side k x0 v0 h = .val v)
    (hc : Spec.tailWeight side (Spec.totalWeight wt (pushes h)) p ≤ (v.map wt).sum) :
    ∃ sel : List (K × V), sel.Subperm (pushes h) ∧ sel.map Prod.snd = v.take sel.length ∧
      sel.map Prod.fst = Spec.extremes side sel.length ((pushes h).map Prod.fst) ∧
      Spec.tailWeight side (Spec.totalWeight wt (pushes h)) p ≤ Spec.totalWeight wt sel ∧
      (∀ m < sel.length, Spec.totalWeight wt (sel.take m)
        < Spec.tailWeight side (Spec.totalWeight wt (pushes h)) p) ∧
      wtailMean H side hasNaN wt k x0 v0 h p = .val (Spec.wmean (sel.map fun q => (q.1, wt q.2))) := by
  obtain ⟨out, D, ht, hv', hp, hD, hex, hs, -, hm⟩ := wtail_out H side hk x0 v0 h
  rw [hm, wtailThreshold_eq]
  rw [hv, Res.val.injEq] at hv'
  subst hv'
  generalize Spec.tailWeight side (Spec.totalWeight wt (pushes h)) p = T at *
  rcases prefix_cases T (out.map fun q => wt q.2) with ⟨n, hn, hlt, hge⟩ | hall
  · rw [List.length_map] at hn
    have hl : (out.take n).length = n := by simp [hn]
    refine ⟨out.take n, ?_, ?_, ?_, ?_, ?_, ?_⟩
    · exact ((List.take_sublist n out).trans (List.sublist_append_left out D)).subperm.trans hp.subperm
    · rw [hl, List.map_take]
    · rw [hl, List.map_take, hex]
      have hlen := congrArg List.length hex
      rw [(C15_extremes side k ((pushes h).map Prod.fst)).1, List.length_map] at hlen
      simp [Spec.extremes, List.take_take, show min n k = n by omega]
    · rw [← take_weights]; exact hge
    · intro m hm'
      rw [hl] at hm'
      rw [List.take_take, Nat.min_eq_left hm'.le, ← take_weights]
      exact hlt m hm'
    · have := wtailMeanResult_found (T := T) hasNaN (out.map fun q => (q.1, wt q.2)) (n := n)
          (by simpa using hn) (by rw [pairs_snd]; exact hlt) (by rw [pairs_snd]; exact hge) hT
      rw [pairs_fst, pairs_snd, ← List.map_take] at this
      exact this
  · have := hall _ le_rfl
    rw [List.take_length] at this
    rw [List.map_map] at hc
    exact absurd hc (not_le.2 this)

/-- **C10/C28** The weighted tail quantile does not depend on the order of the pushes, on extractions in
between, or on how the heap implementation arranges equal samples, as long as both caches are sufficient. -/
theorem C28_wtail_quantile (H' : HeapImpl ℕ) (h' : List (Op (K × V) Unit)) (x0' : K) (v0' : V) (hk : 1 ≤ k)
    (hperm : (pushes h).Perm (pushes h')) (hw : ∀ q ∈ pushes h, 0 ≤ wt q.2)
    (hT : 0 < Spec.tailWeight side (Spec.totalWeight wt (pushes h)) p) {v v' : List V}
    (hv : extractTailVariate H side k x0 v0 h = .val v)
    (hv' : extractTailVariate H' side k x0' v0' h' = .val v')
    (hc : Spec.tailWeight side (Spec.totalWeight wt (pushes h)) p ≤ (v.map wt).sum)
    (hc' : Spec.tailWeight side (Spec.totalWeight wt (pushes h)) p ≤ (v'.map wt).sum) :
    wtailQuantile H side hasNaN wt k x0 v0 h p = wtailQuantile H' side hasNaN wt k x0' v0' h' p := by
  have hW := totalWeight_perm (wt := wt) hperm
  have hw' : ∀ q ∈ pushes h', 0 ≤ wt q.2 := fun q hq => hw q (hperm.mem_iff.2 hq)
  obtain ⟨x, -, ex, x1, x2⟩ := C37_quantile H side hasNaN x0 v0 h hk hw hT hv hc
  obtain ⟨y, -, ey, y1, y2⟩ := C37_quantile H' side hasNaN x0' v0' h' (p := p) (wt := wt) hk hw'
    (by rwa [← hW]) hv' (by rwa [← hW])
  rw [ex, ey]
  congr 1
  have b1 : Spec.weightBeyond side wt (pushes h') y = Spec.weightBeyond side wt (pushes h) y :=
    (totalWeight_perm (hperm.filter _)).symm
  have b2 : Spec.weightStrictlyBeyond side wt (pushes h') y
      = Spec.weightStrictlyBeyond side wt (pushes h) y := (totalWeight_perm (hperm.filter _)).symm
  rw [b1, ← hW] at y1
  rw [b2, ← hW] at y2
  exact weighted_quantile_unique side hw x1 x2 y1 y2

end C37

/-! ## C38 -/

section C38
variable (H : HeapImpl ℕ) (side : Side) (relative hasNaN : Bool) {k d : ℕ} (x0 : K) (v0 : List K × K)
  (h : List (Op (K × (List K × K)) Unit)) {p : K}

/-- **C38, partial** When the cached weights add up to the share, the weighted means of each component of the
variates over a shortest initial part of the cached triples (the same part for the tail mean); the relative
ones are divided by the weighted tail mean.
Missing: termination and NaN otherwise, see `C38_never_returns`. -/
theorem C38_partial (hk : 1 ≤ k) (hd : ∀ q ∈ pushes h, q.2.1.length = d)
    (hT : 0 < Spec.tailWeight side (Spec.totalWeight Prod.snd (pushes h)) p)
    {v : List (List K × K)} (hv : extractTailVariate H side k x0 v0 h = .val v)
    (hc : Spec.tailWeight side (Spec.totalWeight Prod.snd (pushes h)) p ≤ (v.map Prod.snd).sum) :
    ∃ (sel : List (K × (List K × K))) (m : K), sel.Subperm (pushes h) ∧
      sel.map Prod.fst = Spec.extremes side sel.length ((pushes h).map Prod.fst) ∧
      Spec.tailWeight side (Spec.totalWeight Prod.snd (pushes h)) p ≤ Spec.totalWeight Prod.snd sel ∧
      (∀ j < sel.length, Spec.totalWeight Prod.snd (sel.take j)
        < Spec.tailWeight side (Spec.totalWeight Prod.snd (pushes h)) p) ∧
      wtailVariateMeans H side false hasNaN k x0 v0 h p
        = .val ((List.range d).map fun j => Spec.wmean (sel.map fun q => (q.2.1.getD j 0, q.2.2))) ∧
      wtailMean H side hasNaN Prod.snd k x0 v0 h p = .val m ∧
      (m ≠ 0 → wtailVariateMeans H side true hasNaN k x0 v0 h p
        = .val ((List.range d).map fun j =>
            Spec.wmean (sel.map fun q => (q.2.1.getD j 0, q.2.2)) / m)) := by
  obtain ⟨out, D, ht, hv', hp, hex, hm, hq⟩ := wtailVariate_out H side hk x0 v0 h
  rw [hq, hq, hm]
  have hthr : wtailThreshold side ((pushes h).map fun q => q.2.2) p
      = Spec.tailWeight side (Spec.totalWeight Prod.snd (pushes h)) p := wtailThreshold_eq side Prod.snd _ p
  rw [hthr]
  rw [hv, Res.val.injEq] at hv'
  subst hv'
  generalize Spec.tailWeight side (Spec.totalWeight Prod.snd (pushes h)) p = T at *
  rcases prefix_cases T (out.map fun q => q.2.2) with ⟨n, hn, hlt, hge⟩ | hall
  · rw [List.length_map] at hn
    have hl : (out.take n).length = n := by simp [hn]
    have hn0 : 0 < n := by
      rcases Nat.eq_zero_or_pos n with rfl | h0
      · simp at hge; linarith
      · exact h0
    have hmean := wtailMeanResult_found (T := T) hasNaN (out.map fun q => (q.1, q.2.2)) (n := n)
          (by simpa using hn) (by simpa [Function.comp_def] using hlt)
          (by simpa [Function.comp_def] using hge) hT
    rw [List.map_map, List.map_map] at hmean
    have hsum : (((out.map fun q => q.2.2)).take n).sum ≠ 0 := by linarith
    have hloop : ∀ e : Res (ℕ × K), wtailLoop e T 0 0 (out.map fun q => q.2.2)
        = .val (n, (((out.map fun q => q.2.2)).take n).sum) := fun e => by
      rw [wtailLoop_found e T 0 0 _ (n := n) (by simpa using hn) (by simpa using hlt)
        (by simpa using hge)]
      simp
    have hvec : vecInnerProduct (List.replicate d 0) n (out.map fun q => q.2.1) (out.map fun q => q.2.2)
        = .val ((List.range d).map fun j =>
            ((out.take n).map fun q => q.2.2 * q.2.1.getD j 0).sum) := by
      have := vecInnerProduct_eq (d := d) (n := n) (out.map Prod.snd) (fun _ => (0 : K))
        (by
          intro q hq
          obtain ⟨r, hr, rfl⟩ := List.mem_map.1 hq
          exact hd r (hp.mem_iff.1 (List.mem_append_left _ hr))) (by simpa using hn)
      rw [List.map_map, List.map_map] at this
      have hrep : (List.range d).map (fun _ => (0 : K)) = List.replicate d 0 := by
        simp [List.map_const']
      rw [hrep] at this
      refine this.trans ?_
      congr 1
      apply List.map_congr_left
      intro j _
      rw [zero_add, ← List.map_take, List.map_map]
      rfl
    have hne : out ≠ [] := by rintro rfl; simp at hn; omega
    obtain ⟨a, l, hal⟩ : ∃ a l, out = a :: l := List.exists_cons_of_ne_nil hne
    have hvar : (out.map fun q => q.2.1) = a.2.1 :: (l.map fun q => q.2.1) := by rw [hal]; rfl
    have hda : a.2.1.length = d := hd a (hp.mem_iff.1 (List.mem_append_left _ (by rw [hal]; simp)))
    have htot : ((out.map fun q => q.2.2).take n).sum
        = Spec.wtotal ((out.take n).map fun q => ((0 : K), q.2.2)) := by
      rw [← List.map_take]; simp [Spec.wtotal, Function.comp_def]
    refine ⟨out.take n, _, ?_, ?_, ?_, ?_, ?_, hmean, fun hm0 => ?_⟩
    · exact ((List.take_sublist n out).trans (List.sublist_append_left out D)).subperm.trans hp.subperm
    · rw [hl, List.map_take, hex]
      have hlen := congrArg List.length hex
      rw [(C15_extremes side k ((pushes h).map Prod.fst)).1, List.length_map] at hlen
      simp [Spec.extremes, List.take_take, show min n k = n by omega]
    · rw [← take_weights Prod.snd]; exact hge
    · intro m hm'
      rw [hl] at hm'
      rw [List.take_take, Nat.min_eq_left hm'.le, ← take_weights Prod.snd]
      exact hlt m hm'
    · unfold wtailVariateMeansResult wtailVariateMeansOf
      rw [hloop, Res.val_bind, hvar]
      simp only [Bool.false_eq_true, if_false]
      rw [hda, ← hvar, hvec, Res.val_bind, vecDiv_eq hsum, List.map_map]
      congr 1
      apply List.map_congr_left
      intro j _
      simp only [Function.comp_apply, Spec.wmean, Spec.wtotal, List.map_map]
      rw [← List.map_take]
      rfl
    · unfold wtailVariateMeansResult wtailVariateMeansOf
      rw [hloop, Res.val_bind, hvar]
      simp only [if_true]
      rw [hda, ← hvar, hvec, Res.val_bind]
      have hmean' : wtailMeanResult hasNaN T (out.map Prod.fst) (out.map fun q => q.2.2)
          = .val (Spec.wmean ((out.map fun q => (q.1, q.2.2)).take n)) := hmean
      rw [hmean', Res.val_bind, vecDiv_eq (mul_ne_zero hsum hm0), List.map_map]
      congr 1
      apply List.map_congr_left
      intro j _
      rw [Function.comp_apply, div_mul_eq_div_div]
      congr 1
      simp only [Spec.wmean, Spec.wtotal, List.map_map]
      rw [← List.map_take]
      rfl
  · have := hall _ le_rfl
    rw [List.take_length] at this
    rw [List.map_map] at hc
    exact absurd hc (not_le.2 this)

/-- **C38 fails** With a floating point type and an insufficient cache the extraction never returns: the
NaN branch does not leave the loop. -/
theorem C38_never_returns (hk : 1 ≤ k) (hw : ∀ q ∈ pushes h, 0 ≤ q.2.2)
    {v : List (List K × K)} (hv : extractTailVariate H side k x0 v0 h = .val v)
    (hc : (v.map Prod.snd).sum < Spec.tailWeight side (Spec.totalWeight Prod.snd (pushes h)) p) :
    wtailVariateMeans H side relative hasNaN k x0 v0 h p = (if hasNaN then .diverges else .thrown) := by
  obtain ⟨out, D, ht, hv', hp, hex, hm, hq⟩ := wtailVariate_out H side hk x0 v0 h
  have hthr : wtailThreshold side ((pushes h).map fun q => q.2.2) p
      = Spec.tailWeight side (Spec.totalWeight Prod.snd (pushes h)) p := wtailThreshold_eq side Prod.snd _ p
  rw [hq, hthr]
  rw [hv, Res.val.injEq] at hv'
  subst hv'
  rw [List.map_map] at hc
  have hwo : ∀ w ∈ (out.map fun q => q.2.2), 0 ≤ w := by
    intro w hw'
    obtain ⟨q, hq, rfl⟩ := List.mem_map.1 hw'
    exact hw q (hp.mem_iff.1 (List.mem_append_left _ hq))
  unfold wtailVariateMeansResult wtailVariateMeansOf
  rw [wtailLoop_exhausted]
  · cases hasNaN <;> rfl
  · intro m hm'
    have := sum_take_mono hwo hm'
    rw [List.take_length] at this
    rw [zero_add]
    exact lt_of_le_of_lt this hc

end C38

/-- **C38 fails** A reachable case: one cached sample of two, right tail, probability 1/4. -/
theorem C38_diverges :
    wtailVariateMeans HeapImpl.simple Side.right false true 1 (0 : ℚ) ([], 0)
      [.push (3, [1, 2], 1), .push (5, [7, 8], 1)] (1 / 4) = .diverges := by
  decide +kernel

/-! ## Unit weights, scaling of weights, mirrored samples -/

theorem tailPred_mirror (a b : K) : tailPred Side.left (-a) (-b) = tailPred Side.right a b := by
  simp [tailPred]

/-- **C55** The weighted tail statistics of the left tail of the negated stream are the negatives of those of
the right tail, for every history, whatever the heap implementation does with equal samples. -/
theorem C55_wtail_mirror (H : HeapImpl ℕ) (hasNaN : Bool) {k : ℕ} (x0 : K) (v0 : V)
    (h : List (Op (K × V) Unit)) (p : K) (wt : V → K) :
    wtailQuantile H .left hasNaN wt k (-x0) v0 (Spec.mapPairs (fun x => -x) id h) p
      = (fun x => -x) <$> wtailQuantile H .right hasNaN wt k x0 v0 h (1 - p) ∧
    wtailMean H .left hasNaN wt k (-x0) v0 (Spec.mapPairs (fun x => -x) id h) p
      = (fun x => -x) <$> wtailMean H .right hasNaN wt k x0 v0 h (1 - p) := by
  have hr := tailRun_map (side := .right) (side' := .left) (f := fun x : K => -x) tailPred_mirror
    (id : V → V) H k x0 v0 h
  simp only [id_eq] at hr
  have hthr : wtailThreshold Side.left ((pushes (Spec.mapPairs (fun x : K => -x) id h)).map fun q => wt q.2) p
      = wtailThreshold Side.right ((pushes h).map fun q => wt q.2) (1 - p) := by
    rw [pushes_mapPairs, List.map_map]
    simp [wtailThreshold, tailLevel, Function.comp_def]
  unfold wtailQuantile wtailMean
  rw [hr, hthr]
  cases tailRun H Side.right k x0 v0 h with
  | val s =>
    simp only [Res.map_val, Res.val_bind]
    rw [tailResult_map (side := .right) tailPred_mirror, tailVariateResult_map (side := .right) tailPred_mirror]
    cases tailResult H .right s with
    | val t =>
      simp only [Res.map_val, Res.val_bind]
      cases tailVariateResult H .right s with
      | val v =>
        simp only [Res.map_val, Res.val_bind, List.map_id]
        generalize wtailThreshold Side.right ((pushes h).map fun q => wt q.2) (1 - p) = T
        constructor
        · unfold wtailQuantileResult
          cases wtailLoop (nanOrThrow hasNaN) T 0 0 (v.map wt) with
          | val r =>
            simp only [Res.val_bind, List.getElem?_map]
            split
            · rfl
            · cases t[r.1 - 1]? <;> rfl
          | _ => rfl
        · have hin : ∀ (n : ℕ) (i : K) (xs ws : List K), innerProduct (-i) n (xs.map fun x => -x) ws
              = (fun x => -x) <$> innerProduct i n xs ws := by
            intro n
            induction n with
            | zero => intro i xs ws; rfl
            | succ n ih =>
              intro i xs ws
              cases xs with
              | nil => rfl
              | cons x xs =>
                cases ws with
                | nil => rfl
                | cons w ws =>
                  simp only [List.map_cons, innerProduct]
                  rw [← ih]
                  congr 1
                  ring
          unfold wtailMeanResult
          cases wtailLoop (nanOrThrow hasNaN) T 0 0 (v.map wt) with
          | val r =>
            simp only [Res.val_bind]
            have := hin r.1 0 t (v.map wt)
            rw [neg_zero] at this
            rw [this]
            cases innerProduct 0 r.1 t (v.map wt) with
            | val s =>
              simp only [Res.map_val, Res.val_bind]
              unfold fdiv
              split
              · rfl
              · simp [neg_div]
            | _ => rfl
          | _ => rfl
      | _ => exact ⟨rfl, rfl⟩
    | _ => exact ⟨rfl, rfl⟩
  | _ => exact ⟨rfl, rfl⟩

/-- **C36** Multiplying all weights by a common positive factor changes neither the weighted tail quantile
nor the weighted tail mean, for every history. -/
theorem C36_wtail_scale (H : HeapImpl ℕ) (side : Side) (hasNaN : Bool) {k : ℕ} (x0 v0 : K)
    (h : List (Op (K × K) Unit)) (p : K) {c : K} (hc : 0 < c) :
    wtailQuantile H side hasNaN id k x0 (c * v0) (Spec.mapPairs id (fun w => c * w) h) p
      = wtailQuantile H side hasNaN id k x0 v0 h p ∧
    wtailMean H side hasNaN id k x0 (c * v0) (Spec.mapPairs id (fun w => c * w) h) p
      = wtailMean H side hasNaN id k x0 v0 h p := by
  have hid : ∀ a b : K, tailPred side (id a) (id b) = tailPred side a b := fun _ _ => rfl
  have hr := tailRun_map (side := side) (side' := side) (f := (id : K → K)) hid (fun w : K => c * w) H k x0
    v0 h
  simp only [id_eq] at hr
  have hthr : wtailThreshold side
      ((pushes (Spec.mapPairs (id : K → K) (fun w : K => c * w) h)).map fun q => id q.2) p
      = c * wtailThreshold side ((pushes h).map fun q => id q.2) p := by
    rw [pushes_mapPairs, List.map_map]
    simp only [wtailThreshold_sum, Function.comp_def, id_eq]
    rw [List.sum_map_mul_left, mul_assoc]
  have hloop : ∀ (ws : List K) (T : K) (n : ℕ) (s : K),
      wtailLoop (nanOrThrow hasNaN) (c * T) n (c * s) (ws.map fun w => c * w)
        = (fun r : ℕ × K => (r.1, c * r.2)) <$> wtailLoop (nanOrThrow hasNaN) T n s ws := by
    intro ws
    induction ws with
    | nil =>
      intro T n s
      simp only [List.map_nil, wtailLoop, mul_lt_mul_iff_right₀ hc]
      split
      · cases hasNaN <;> rfl
      · rfl
    | cons w ws ih =>
      intro T n s
      simp only [List.map_cons, wtailLoop, mul_lt_mul_iff_right₀ hc]
      split
      · rw [← mul_add]; exact ih _ _ _
      · rfl
  have hin : ∀ (n : ℕ) (i : K) (xs ws : List K), innerProduct (c * i) n xs (ws.map fun w => c * w)
      = (fun x => c * x) <$> innerProduct i n xs ws := by
    intro n
    induction n with
    | zero => intro i xs ws; rfl
    | succ n ih =>
      intro i xs ws
      cases xs with
      | nil => rfl
      | cons x xs =>
        cases ws with
        | nil => rfl
        | cons w ws =>
          simp only [List.map_cons, innerProduct]
          rw [← ih]
          congr 1
          ring
  unfold wtailQuantile wtailMean
  rw [hr, hthr]
  cases tailRun H side k x0 v0 h with
  | val s =>
    simp only [Res.map_val, Res.val_bind]
    rw [tailResult_map (side := side) hid, tailVariateResult_map (side := side) hid]
    cases tailResult H side s with
    | val t =>
      simp only [Res.map_val, Res.val_bind]
      cases tailVariateResult H side s with
      | val v =>
        simp only [Res.map_val, Res.val_bind, List.map_id]
        generalize wtailThreshold side ((pushes h).map fun q => id q.2) p = T
        have hl := hloop v T 0 0
        rw [mul_zero] at hl
        constructor
        · unfold wtailQuantileResult
          rw [hl]
          cases wtailLoop (nanOrThrow hasNaN) T 0 0 v <;> rfl
        · unfold wtailMeanResult
          rw [hl]
          cases wtailLoop (nanOrThrow hasNaN) T 0 0 v with
          | val r =>
            simp only [Res.map_val, Res.val_bind]
            have := hin r.1 0 t v
            rw [mul_zero] at this
            rw [this]
            cases innerProduct 0 r.1 t v with
            | val s =>
              simp only [Res.map_val, Res.val_bind]
              unfold fdiv
              by_cases h0 : r.2 = 0
              · simp [h0]
              · rw [if_neg h0, if_neg (mul_ne_zero hc.ne' h0), mul_div_mul_left _ _ hc.ne']
            | _ => rfl
          | _ => rfl
      | _ => exact ⟨rfl, rfl⟩
    | _ => exact ⟨rfl, rfl⟩
  | _ => exact ⟨rfl, rfl⟩

section C35
variable [FloorRing K] (H : HeapImpl ℕ) (side : Side) (hasNaN : Bool) {k : ℕ} (x0 : K) (v0 : V)
  (h : List (Op (K × V) Unit)) {p : K} {wt : V → K} {n : ℕ}

/-- With unit weights the search stops at `⌈count · level⌉`. -/
theorem unit_prefix (hw : ∀ q ∈ pushes h, wt q.2 = 1) (hn : Spec.tailCount side (pushes h).length p = n)
    {out D : List (K × V)} (hp : (out ++ D).Perm (pushes h)) (hno : n ≤ out.length) :
    (∀ m < n, ((out.map fun q => wt q.2).take m).sum
      < Spec.tailWeight side (Spec.totalWeight wt (pushes h)) p) ∧
    Spec.tailWeight side (Spec.totalWeight wt (pushes h)) p
      ≤ ((out.map fun q => wt q.2).take n).sum := by
  have hone : ∀ l : List (K × V), (∀ q ∈ l, wt q.2 = 1) → Spec.totalWeight wt l = l.length := by
    intro l hl
    unfold Spec.totalWeight
    rw [List.map_congr_left hl]
    simp
  have hout : ∀ m ≤ out.length, ((out.map fun q => wt q.2).take m).sum = (m : K) := by
    intro m hm
    rw [take_weights, hone]
    · simp [hm]
    · intro q hq
      exact hw q (hp.mem_iff.1 (List.mem_append_left _ (List.mem_of_mem_take hq)))
  have hW := hone _ hw
  have hT : ⌈Spec.tailWeight side (Spec.totalWeight wt (pushes h)) p⌉ = (n : ℤ) := by
    rw [hW]; rw [← hn]; cases side <;> rfl
  rw [Int.ceil_eq_iff] at hT
  constructor
  · intro m hm
    rw [hout m (by omega)]
    have : (m : K) ≤ (n : ℤ) - 1 := by
      have : ((m : ℤ) : K) ≤ ((n : ℤ) - 1 : ℤ) := by exact_mod_cast (by omega : (m : ℤ) ≤ (n : ℤ) - 1)
      push_cast at this ⊢
      exact this
    linarith [hT.1]
  · rw [hout n hno]
    exact_mod_cast hT.2

/-- **C35** Unit weights: the weighted tail mean is the unweighted one, and so is the quantile whenever the
unweighted estimator accepts to answer. -/
theorem C35_tail (hk : 1 ≤ k) (hw : ∀ q ∈ pushes h, wt q.2 = 1)
    (hn : Spec.tailCount side (pushes h).length p = n) (h1 : 1 ≤ n) :
    (n ≤ min k (pushes h).length →
      wtailMean H side hasNaN wt k x0 v0 h p = nonCoherentTailMean H side hasNaN k x0 v0 h p) ∧
    (n < min k (pushes h).length →
      wtailQuantile H side hasNaN wt k x0 v0 h p = tailQuantile H side hasNaN k x0 v0 h p) := by
  obtain ⟨out, D, ht, hv', hp, -, hex, hs, hq, hm⟩ := wtail_out H side hk x0 v0 h
  have hlen : out.length = min k (pushes h).length := by
    have := congrArg List.length hex
    rw [(C15_extremes side k ((pushes h).map Prod.fst)).1] at this
    simpa using this
  rw [hq, hm, wtailThreshold_eq]
  constructor
  · intro h2
    obtain ⟨hlt, hge⟩ := unit_prefix side h hw hn hp (by omega)
    have hT : 0 < Spec.tailWeight side (Spec.totalWeight wt (pushes h)) p := by
      simpa using hlt 0 (by omega)
    have := wtailMeanResult_found (T := Spec.tailWeight side (Spec.totalWeight wt (pushes h)) p) hasNaN
      (out.map fun q => (q.1, wt q.2)) (n := n) (by rw [List.length_map]; omega)
      (by rw [pairs_snd]; exact hlt) (by rw [pairs_snd]; exact hge) hT
    rw [pairs_fst, pairs_snd] at this
    rw [this, C19_mean H side hasNaN x0 v0 h hk hn h1 h2]
    congr 1
    have hex' : (out.take n).map Prod.fst = Spec.extremes side n ((pushes h).map Prod.fst) := by
      rw [List.map_take, hex, extremes_take side (by omega)]
    rw [← hex']
    have hone : ∀ q ∈ out.take n, wt q.2 = 1 := fun q hq =>
      hw q (hp.mem_iff.1 (List.mem_append_left _ (List.mem_of_mem_take hq)))
    simp only [Spec.wmean, Spec.wtotal, Spec.mean, ← List.map_take, List.map_map, List.length_map]
    congr 1
    · congr 1
      apply List.map_congr_left
      intro q hq
      simp [hone q hq]
    · rw [show (Prod.snd ∘ fun q : K × V => (q.1, wt q.2)) = fun q => wt q.2 from rfl,
        List.map_congr_left hone]
      simp
  · intro h2
    obtain ⟨m, rfl⟩ : ∃ m, n = m + 1 := ⟨n - 1, by omega⟩
    obtain ⟨hlt, hge⟩ := unit_prefix side h hw hn hp (by omega)
    have := wtailQuantileResult_found (T := Spec.tailWeight side (Spec.totalWeight wt (pushes h)) p) hasNaN
      (out.map fun q => (q.1, wt q.2)) (n := m) (by rw [List.length_map]; omega)
      (by rw [pairs_snd]; exact hlt) (by rw [pairs_snd]; exact hge)
    rw [pairs_fst, pairs_snd] at this
    rw [this]
    obtain ⟨x, ex, hx⟩ := C18_quantile H side hasNaN x0 v0 h hk hn h1 h2
    rw [ex]
    congr 1
    have h3 : (out.map Prod.fst)[m]? = some x := by
      rw [hex]
      unfold Spec.extremes
      rw [List.getElem?_take_of_lt (by omega)]
      simpa using hx
    rw [List.getElem?_map, List.getElem?_eq_getElem (by omega)] at h3
    simpa using h3

end C35

/-- **C35 fails at the edge** Unit weights, the quantile needs all cached samples: the weighted estimator
answers, the unweighted one refuses. -/
theorem C35_tail_edge :
    wtailQuantile HeapImpl.simple Side.left true id 2 (0 : ℚ) 0 [.push (3, 1), .push (1, 1)] 1 = .val 3 ∧
    tailQuantile HeapImpl.simple Side.left true 2 (0 : ℚ) 0 [.push (3, (1 : ℚ)), .push (1, 1)] 1
      = .nonfinite := by
  constructor <;> decide +kernel

/-! ## Concrete cases -/

/-- Hypotheses of `C37_quantile` and `C37_mean` are met by a stream with ties and different weights. -/
example : wtailQuantile HeapImpl.simple Side.right true id 3 (0 : ℚ) 0
    [.push (3, 1), .push (5, 2), .query (), .push (5, 1), .push (1, 4), .push (4, 3)] (1 / 2) = .val 4 := by
  decide +kernel
example : extractTailVariate HeapImpl.simple Side.right 3 (0 : ℚ) 0
    [.push (3, 1), .push (5, 2), .query (), .push (5, 1), .push (1, 4), .push (4, (3 : ℚ))]
      = .val [1, 2, 3] := by
  decide +kernel
example : wtailMean HeapImpl.simple Side.right true id 3 (0 : ℚ) 0
    [.push (3, 1), .push (5, 2), .query (), .push (5, 1), .push (1, 4), .push (4, 3)] (1 / 2)
      = .val (9 / 2) := by
  decide +kernel
example : wtailVariateMeans HeapImpl.simple Side.right false true 2 (0 : ℚ) ([], 0)
    [.push (3, [1, 2], 1), .push (5, [7, 8], 1), .push (4, [3, 0], 3)] (2 / 5) = .val [4, 2] := by
  decide +kernel
example : wtailVariateMeans HeapImpl.simple Side.right true true 2 (0 : ℚ) ([], 0)
    [.push (3, [1, 2], 1), .push (5, [7, 8], 1), .push (4, [3, 0], 3)] (2 / 5)
      = .val [4 / (17 / 4), 2 / (17 / 4)] := by
  decide +kernel
example : wtailQuantile HeapImpl.simple Side.right true id 1 (0 : ℚ) 0 [.push (3, 1), .push (5, 1)] (1 / 4)
    = .nonfinite := by
  decide +kernel

end Acc
