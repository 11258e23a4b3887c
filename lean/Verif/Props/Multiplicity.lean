import Verif.Props.Weighted
import Verif.Props.WTail
import Verif.Props.TailEst
import Verif.Props.Density
import Verif.Props.Pot
import Verif.Model.PSquare

/-!
# Integer weights as multiplicities, for the estimators (C81)
-/

set_option linter.unusedSectionVars false

namespace Acc

variable {K : Type} [Field K] [LinearOrder K] [IsStrictOrderedRing K]

/-! ## Counting in the expanded stream -/

theorem withWeights_filter {X : Type*} (ps : List (X × ℕ)) (P : X → Bool) :
    (Spec.withWeights (K := K) ps).filter (fun q => P q.1)
      = Spec.withWeights (ps.filter fun q => P q.1) := by
  simp only [Spec.withWeights, List.filter_map]; rfl

theorem expand_filter {X : Type*} (ps : List (X × ℕ)) (P : X → Bool) :
    (Spec.expand ps).filter P = Spec.expand (ps.filter fun q => P q.1) := by
  induction ps with
  | nil => rfl
  | cons q ps ih =>
    simp only [Spec.expand, List.flatMap_cons, List.filter_append] at ih ⊢
    rw [ih]
    by_cases hq : P q.1 = true
    · simp [hq]
    · simp [hq]

theorem expand_map {X Y : Type*} (f : X → Y) (ps : List (X × ℕ)) :
    (Spec.expand ps).map f = Spec.expand (ps.map fun q => (f q.1, q.2)) := by
  induction ps with
  | nil => rfl
  | cons q ps ih =>
    simp only [Spec.expand, List.flatMap_cons, List.map_append, List.map_cons, List.map_replicate] at ih ⊢
    rw [ih]

theorem expand_append {X : Type*} (a b : List (X × ℕ)) :
    Spec.expand (a ++ b) = Spec.expand a ++ Spec.expand b := by
  simp [Spec.expand]

theorem mem_expand {X : Type*} {ps : List (X × ℕ)} (hw : ∀ q ∈ ps, 0 < q.2) {x : X} :
    x ∈ Spec.expand ps ↔ x ∈ ps.map Prod.fst := by
  simp only [Spec.expand, List.mem_flatMap, List.mem_replicate, List.mem_map]
  constructor
  · rintro ⟨q, hq, -, rfl⟩; exact ⟨q, hq, rfl⟩
  · rintro ⟨q, hq, rfl⟩; exact ⟨q, hq, (hw q hq).ne', rfl⟩

/-- The weight of the samples with some property is the number of copies with it. -/
theorem weight_eq_countP {X : Type*} (ps : List (X × ℕ)) (P : X → Bool) :
    (((Spec.withWeights (K := K) ps).filter fun q => P q.1).map Prod.snd).sum
      = ((Spec.expand ps).countP P : K) := by
  rw [withWeights_filter, ← length_expand, ← expand_filter, List.countP_eq_length_filter]

theorem geExt_gt {side : Side} {x y z : K} (hxy : Spec.gtExt side x y) (h : Spec.geExt side z x) :
    Spec.gtExt side z y := by
  cases side <;> simp only [Spec.gtExt, Spec.geExt] at * <;> order

theorem gtExt_or {side : Side} {x y : K} (hne : x ≠ y) : Spec.gtExt side x y ∨ Spec.gtExt side y x := by
  cases side <;> simp only [Spec.gtExt] <;> rcases lt_or_gt_of_ne hne with h | h <;> simp [h]

/-- The `n`-th most extreme value is determined by the counts. -/
theorem order_unique {side : Side} {xs : List K} {n : ℕ} {x y : K}
    (hx1 : n ≤ xs.countP fun z => decide (Spec.geExt side z x))
    (hx2 : xs.countP (fun z => decide (Spec.gtExt side z x)) < n)
    (hy1 : n ≤ xs.countP fun z => decide (Spec.geExt side z y))
    (hy2 : xs.countP (fun z => decide (Spec.gtExt side z y)) < n) : x = y := by
  by_contra hne
  rcases gtExt_or (side := side) hne with h | h
  · have : xs.countP (fun z => decide (Spec.geExt side z x)) ≤
        xs.countP fun z => decide (Spec.gtExt side z y) :=
      List.countP_mono_left fun z _ hz => decide_eq_true (geExt_gt h (of_decide_eq_true hz))
    omega
  · have : xs.countP (fun z => decide (Spec.geExt side z y)) ≤
        xs.countP fun z => decide (Spec.gtExt side z x) :=
      List.countP_mono_left fun z _ hz => decide_eq_true (geExt_gt h (of_decide_eq_true hz))
    omega

/-! ## Tail quantile -/

section tail
variable [FloorRing K] {V : Type} (H H' : HeapImpl ℕ) (side : Side) (hasNaN hasNaN' : Bool) {k k' : ℕ}
  (x0 x0' v0 : K) (v0' : V) {ps : List (K × ℕ)} {h : List (Op (K × K) Unit)} {h' : List (Op (K × V) Unit)}
  {p : K} {n : ℕ}

theorem tailWeight_expand (ps : List (K × ℕ)) (p : K) :
    Spec.tailCount side (Spec.expand ps).length p
      = ⌈Spec.tailWeight side (Spec.totalWeight id (Spec.withWeights (K := K) ps)) p⌉ := by
  have : Spec.totalWeight id (Spec.withWeights (K := K) ps) = ((Spec.expand ps).length : K) := by
    rw [length_expand]; rfl
  rw [this]
  cases side <;> rfl

/-- **C81** One set receives the samples with their integer weights, another every sample as often as its
weight says.  Both caches hold enough of the tail: then the two tail quantiles are the same sample. -/
theorem C81_tail_quantile (hk : 1 ≤ k) (hk' : 1 ≤ k')
    (hh : pushes h = Spec.withWeights ps) (hh' : (pushes h').map Prod.fst = Spec.expand ps)
    (hn : Spec.tailCount side (Spec.expand ps).length p = n) (h1 : 1 ≤ n)
    (h2 : n < min k' (Spec.expand ps).length) {v : List K}
    (hv : extractTailVariate H side k x0 v0 h = .val v) (hc : (n : K) ≤ v.sum) :
    ∃ x, wtailQuantile H side hasNaN id k x0 v0 h p = .val x ∧
      tailQuantile H' side hasNaN' k' x0' v0' h' p = .val x := by
  have hlen : (pushes h').length = (Spec.expand ps).length := by rw [← hh']; simp
  have hT := hn
  rw [tailWeight_expand, ← hh, Int.ceil_eq_iff] at hT
  obtain ⟨hT1, hT2⟩ := hT
  push_cast at hT1 hT2
  have h1' : (1 : K) ≤ n := by exact_mod_cast h1
  obtain ⟨x, -, hx, hx1, hx2⟩ := C37_quantile H side hasNaN x0 v0 h (wt := id) (p := p) hk
    (by
      intro q hq
      rw [hh] at hq
      obtain ⟨r, -, rfl⟩ := List.mem_map.1 hq
      exact Nat.cast_nonneg _)
    (by linarith) hv (by rw [List.map_id]; linarith)
  obtain ⟨y, hy, hy0⟩ := C18_quantile H' side hasNaN' x0' v0' h' hk' (by rw [hlen]; exact hn) h1
    (by rw [hlen]; exact h2)
  rw [hh'] at hy0
  obtain ⟨-, hy1, hy2⟩ := C18_order_statistic side hy0
  have ge : Spec.weightBeyond side id (pushes h) x
      = ((Spec.expand ps).countP fun z => decide (Spec.geExt side z x) : K) := by
    rw [← weight_eq_countP, hh]; rfl
  have gt : Spec.weightStrictlyBeyond side id (pushes h) x
      = ((Spec.expand ps).countP fun z => decide (Spec.gtExt side z x) : K) := by
    rw [← weight_eq_countP, hh]; rfl
  rw [ge] at hx1
  rw [gt] at hx2
  have hx1' : n ≤ (Spec.expand ps).countP fun z => decide (Spec.geExt side z x) := by
    have : (n : K) - 1 < ((Spec.expand ps).countP fun z => decide (Spec.geExt side z x) : K) := by linarith
    have : (n : K) < ((Spec.expand ps).countP fun z => decide (Spec.geExt side z x) : K) + 1 := by linarith
    have : n < (Spec.expand ps).countP (fun z => decide (Spec.geExt side z x)) + 1 := by exact_mod_cast this
    omega
  have hx2' : (Spec.expand ps).countP (fun z => decide (Spec.gtExt side z x)) < n := by
    exact_mod_cast lt_of_lt_of_le hx2 hT2
  have : x = y := order_unique hx1' hx2' (by omega) (by omega)
  exact ⟨x, hx, this ▸ hy⟩

/-! ## Tail mean -/

/-- In a list sorted by extremity the values at least as extreme as `x` come first. -/
theorem take_countP_geExt {L : List K} (hs : L.Pairwise (Spec.geExt side)) (x : K) :
    L.take (L.countP fun z => decide (Spec.geExt side z x)) = L.filter fun z => decide (Spec.geExt side z x) := by
  induction L with
  | nil => rfl
  | cons a L ih =>
    rw [List.pairwise_cons] at hs
    by_cases ha : Spec.geExt side a x
    · rw [List.countP_cons_of_pos (by simpa using ha), List.take_succ_cons, ih hs.2,
        List.filter_cons_of_pos (by simpa using ha)]
    · have hall : ∀ z ∈ L, ¬ decide (Spec.geExt side z x) = true := by
        intro z hz hzx
        have h1 := hs.1 z hz
        have h2 := of_decide_eq_true hzx
        apply ha
        cases side <;> simp only [Spec.geExt] at * <;> order
      rw [List.countP_cons_of_neg (by simpa using ha), List.countP_eq_zero.2 hall,
        List.filter_cons_of_neg (by simpa using ha), List.filter_eq_nil_iff.2 hall]
      rfl

theorem extremes_countP (xs : List K) (x : K) :
    (Spec.extremes side (xs.countP fun z => decide (Spec.geExt side z x)) xs).Perm
      (xs.filter fun z => decide (Spec.geExt side z x)) := by
  have hp := byExtremity_perm side xs
  rw [← hp.countP_eq]
  unfold Spec.extremes
  rw [take_countP_geExt side (byExtremity_sorted side xs)]
  exact hp.filter _

theorem totalWeight_subperm_lt {a b : List (K × K)} (hs : a.Subperm b) (hl : a.length < b.length)
    (hw : ∀ q ∈ b, 0 < q.2) : Spec.totalWeight id a < Spec.totalWeight id b := by
  obtain ⟨l, hp, hsub⟩ := hs
  obtain ⟨c, hc⟩ := hsub.exists_perm_append
  rw [← hp.length_eq] at hl
  have e1 : Spec.totalWeight id a = Spec.totalWeight id l := (totalWeight_perm (wt := id) hp).symm
  have e2 : Spec.totalWeight id b = Spec.totalWeight id (l ++ c) := totalWeight_perm (wt := id) hc
  rw [e1, e2, totalWeight_append]
  have hcl := hc.length_eq
  rw [List.length_append] at hcl
  have : 0 < Spec.totalWeight id c := by
    apply List.sum_pos
    · intro w hw'
      obtain ⟨q, hq, rfl⟩ := List.mem_map.1 hw'
      exact hw q (hc.mem_iff.2 (List.mem_append_right _ hq))
    · intro h0
      have := congrArg List.length h0
      simp only [List.length_map, List.length_nil] at this
      omega
  linarith

/-- **C81** The tail means agree when the tail ends between two samples: the copies of the samples at least as
extreme as some `x` are exactly the `n` the unweighted estimator averages. -/
theorem C81_tail_mean (hk : 1 ≤ k) (hk' : 1 ≤ k') (hw : ∀ q ∈ ps, 0 < q.2)
    (hh : pushes h = Spec.withWeights ps) (hh' : (pushes h').map Prod.fst = Spec.expand ps)
    (hT : Spec.tailWeight side ((Spec.expand ps).length : K) p = n) (h1 : 1 ≤ n) {x : K}
    (hx : (Spec.expand ps).countP (fun z => decide (Spec.geExt side z x)) = n)
    (h2 : n ≤ k') {v : List K}
    (hv : extractTailVariate H side k x0 v0 h = .val v) (hc : (n : K) ≤ v.sum) :
    ∃ m, wtailMean H side hasNaN id k x0 v0 h p = .val m ∧
      nonCoherentTailMean H' side hasNaN' k' x0' v0' h' p = .val m := by
  have hlen : (pushes h').length = (Spec.expand ps).length := by rw [← hh']; simp
  have h1' : (1 : K) ≤ n := by exact_mod_cast h1
  have hW : Spec.totalWeight id (pushes h) = ((Spec.expand ps).length : K) := by
    rw [hh, length_expand]; rfl
  have hT' : Spec.tailWeight side (Spec.totalWeight id (pushes h)) p = n := by rw [hW, hT]
  have hn : Spec.tailCount side (Spec.expand ps).length p = n := by
    rw [tailWeight_expand, ← hh, hT']; simp
  obtain ⟨sel, hsub, -, hfst, hge, hlt, hm⟩ := C37_mean H side hasNaN x0 v0 h (wt := id) (p := p) hk
    (by rw [hT']; linarith) hv (by rw [List.map_id, hT']; exact hc)
  rw [hT'] at hge hlt
  have hpos : ∀ q ∈ pushes h, 0 < q.2 := by
    intro q hq
    rw [hh] at hq
    obtain ⟨r, hr, rfl⟩ := List.mem_map.1 hq
    exact Nat.cast_pos.2 (hw r hr)
  -- the pairs at least as extreme as `x`
  obtain ⟨F, hF⟩ : ∃ F, F = (pushes h).filter fun q => decide (Spec.geExt side q.1 x) := ⟨_, rfl⟩
  have hFw : Spec.totalWeight id F = n := by
    rw [hF, hh, ← hx, ← weight_eq_countP]; rfl
  have hFp : ∀ q ∈ F, 0 < q.2 := fun q hq => hpos q (by rw [hF] at hq; exact List.mem_of_mem_filter hq)
  have hFl : F.length = ((pushes h).map Prod.fst).countP fun z => decide (Spec.geExt side z x) := by
    rw [hF, List.countP_map, List.countP_eq_length_filter]; rfl
  -- any initial part of the cache no longer than `F` lies within `F`
  have within : ∀ (l : List (K × K)), l.Subperm (pushes h) →
      (∀ z ∈ l.map Prod.fst, Spec.geExt side z x) → l.Subperm F := by
    intro l hl hz
    have := hl.filter (fun q => decide (Spec.geExt side q.1 x))
    rw [List.filter_eq_self.2] at this
    · rw [hF]; exact this
    · intro q hq
      exact decide_eq_true (hz q.1 (List.mem_map_of_mem hq))
  have hext : ∀ m ≤ F.length, ∀ z ∈ Spec.extremes side m ((pushes h).map Prod.fst), Spec.geExt side z x := by
    intro m hm z hz
    have hz' : z ∈ Spec.extremes side F.length ((pushes h).map Prod.fst) := by
      unfold Spec.extremes at hz ⊢
      exact (List.take_prefix_take_left hm).subset hz
    rw [hFl, (extremes_countP side _ x).mem_iff] at hz'
    exact of_decide_eq_true (List.mem_filter.1 hz').2
  have hselF : sel.Perm F := by
    rcases lt_trichotomy sel.length F.length with hl | hl | hl
    · have hs := within sel hsub (by rw [hfst]; exact hext _ hl.le)
      have := totalWeight_subperm_lt hs hl hFp
      linarith
    · exact (within sel hsub (by rw [hfst]; exact hext _ hl.le)).perm_of_length_le hl.ge
    · have htl : (sel.take F.length).length = F.length := by rw [List.length_take]; omega
      have hts : (sel.take F.length).Subperm (pushes h) :=
        ((List.take_sublist _ _).subperm).trans hsub
      have htf : (sel.take F.length).map Prod.fst = Spec.extremes side F.length ((pushes h).map Prod.fst) := by
        rw [List.map_take, hfst]
        unfold Spec.extremes
        rw [List.take_take, Nat.min_eq_left hl.le]
      have hs := within _ hts (by rw [htf]; exact hext _ le_rfl)
      have hp := hs.perm_of_length_le htl.ge
      have hlt' := hlt F.length hl
      rw [totalWeight_perm (wt := id) hp, hFw] at hlt'
      exact absurd hlt' (lt_irrefl _)
  have hmean := C19_mean H' side hasNaN' x0' v0' h' hk' (p := p) (n := n) (by rw [hlen]; exact hn) h1
    (by rw [hlen]; exact le_min h2 (by rw [← hx]; exact List.countP_le_length))
  refine ⟨_, hm, ?_⟩
  rw [hmean, hh', Res.val.injEq]
  have e1 : Spec.mean (Spec.extremes side n (Spec.expand ps))
      = Spec.mean ((Spec.expand ps).filter fun z => decide (Spec.geExt side z x)) := by
    conv_lhs => rw [← hx]
    exact mean_perm (extremes_countP side _ x)
  rw [e1, expand_filter, ← mult_wmean, ← withWeights_filter _ (fun z => decide (Spec.geExt side z x)), ← hh, ← hF]
  have hp2 : (sel.map fun q => (q.1, id q.2)).Perm F := by simpa using hselF
  unfold Spec.wmean Spec.wtotal
  rw [(hp2.map _).sum_eq, (hp2.map Prod.snd).sum_eq]

end tail

/-! ## Density -/

theorem binWeight_withWeights (ps : List (K × ℕ)) (a b : K) (B i : ℕ) :
    Spec.binWeight a b B i (Spec.withWeights ps) = (Spec.binCount a b B i (Spec.expand ps) : K) := by
  unfold Spec.binWeight Spec.binCount
  exact weight_eq_countP ps fun x => decide (Spec.inBin a b B i x)

/-- **C81** The weighted histogram is the histogram of the copies, if the unweighted estimator is given as
cache size the number of copies of the first `c` samples. -/
theorem C81_density {lo hi : K} {c c' B : ℕ} (hc : 0 < c) (hB : 0 < B) (x0 x0' : K) {ps : List (K × ℕ)}
    (hw : ∀ q ∈ ps, 0 < q.2) (hlim : ∀ q ∈ ps, lo ≤ q.1 ∧ q.1 ≤ hi) (hfull : c ≤ ps.length)
    (hc' : c' = (Spec.expand (ps.take c)).length)
    {h : List (Op (K × K) Unit)} {h' : List (Op K Unit)}
    (hh : pushes h = Spec.withWeights ps) (hh' : pushes h' = Spec.expand ps) :
    ∃ t, (wdensitySet lo hi c B x0).answer h () = .val t ∧ (densitySet lo hi c' B x0').answer h' () = .val t := by
  have hlist : ps.take c ≠ [] := by
    intro h0
    have := congrArg List.length h0
    rw [List.length_take, List.length_nil] at this
    omega
  have hsplit : Spec.expand ps = Spec.expand (ps.take c) ++ Spec.expand (ps.drop c) := by
    rw [← expand_append, List.take_append_drop]
  have htake : (Spec.expand ps).take c' = Spec.expand (ps.take c) := by
    rw [hsplit, hc', List.take_left]
  have hwt : ∀ q ∈ ps.take c, 0 < q.2 := fun q hq => hw q (List.mem_of_mem_take hq)
  have hmem : ∀ x, x ∈ (Spec.expand ps).take c' ↔ x ∈ ((pushes h).take c).map Prod.fst := by
    intro x
    rw [htake, mem_expand hwt, hh]
    simp [Spec.withWeights, ← List.map_take]
  have hex : Spec.expand (ps.take c) ≠ [] := expand_ne hwt hlist
  obtain ⟨a, ha⟩ : ∃ a, IsLeast {x | x ∈ (Spec.expand ps).take c'} a := by
    rw [htake]
    obtain ⟨a, ha⟩ := Finset.exists_min_image (Spec.expand (ps.take c)).toFinset id
      (by simpa [Finset.Nonempty, List.toFinset_nonempty_iff] using List.exists_mem_of_ne_nil _ hex)
    exact ⟨a, by simpa using ha.1, fun y hy => ha.2 y (by simpa using hy)⟩
  obtain ⟨b, hb⟩ : ∃ b, IsGreatest {x | x ∈ (Spec.expand ps).take c'} b := by
    rw [htake]
    obtain ⟨b, hb⟩ := Finset.exists_max_image (Spec.expand (ps.take c)).toFinset id
      (by simpa [Finset.Nonempty, List.toFinset_nonempty_iff] using List.exists_mem_of_ne_nil _ hex)
    exact ⟨b, by simpa using hb.1, fun y hy => hb.2 y (by simpa using hy)⟩
  have hset : {x | x ∈ (Spec.expand ps).take c'} = {x | x ∈ ((pushes h).take c).map Prod.fst} :=
    Set.ext hmem
  have htot : Spec.wtotal (pushes h) = ((Spec.expand ps).length : K) := by
    rw [hh, length_expand]; rfl
  have hlen : c' ≤ (Spec.expand ps).length := by
    rw [hc', hsplit, List.length_append]; omega
  have hpos : 0 < (Spec.expand ps).length := by
    rw [hsplit, List.length_append]
    have := List.length_pos_of_ne_nil hex
    omega
  refine ⟨_, C27_density hB x0 h ?_ ?_ (hset ▸ ha) (hset ▸ hb) ?_, ?_⟩
  · intro q hq
    rw [hh] at hq
    obtain ⟨r, hr, rfl⟩ := List.mem_map.1 hq
    exact hlim r hr
  · rw [hh]; simpa [Spec.withWeights] using hfull
  · rw [htot]; exact_mod_cast hpos.ne'
  · rw [C26_density hB x0' h' ?_ ?_ (by rw [hh']; exact ha) (by rw [hh']; exact hb)]
    · rw [htot, hh, hh']
      simp only [binWeight_withWeights]
    · intro x hx
      rw [hh', mem_expand hw] at hx
      obtain ⟨r, hr, rfl⟩ := List.mem_map.1 hx
      exact hlim r hr
    · rw [hh']; exact hlen

/-! ## Peaks over threshold -/

theorem wexceedances_withWeights (side : Side) (thr : K) (ps : List (K × ℕ)) :
    ∃ es : List (K × ℕ), Spec.wexceedances side thr (Spec.withWeights ps) = Spec.withWeights es ∧
      Spec.exceedances side thr (Spec.expand ps) = Spec.expand es := by
  cases side
  · refine ⟨(ps.filter fun q => decide (q.1 < thr)).map fun q => (-q.1, q.2), ?_, ?_⟩
    · simp only [Spec.wexceedances]
      rw [withWeights_filter ps (fun z => decide (z < thr))]
      simp [Spec.withWeights]
    · simp only [Spec.exceedances]
      rw [expand_filter, expand_map]
  · refine ⟨ps.filter fun q => decide (thr < q.1), ?_, ?_⟩
    · simp only [Spec.wexceedances]
      exact withWeights_filter ps (fun z => decide (thr < z))
    · simp only [Spec.exceedances]
      exact expand_filter _ _

/-- **C81** The weighted peaks-over-threshold fit is the fit of the copies. -/
theorem C81_pot (pw : K → K → Res K) (side : Side) (thr : K) (ps : List (K × ℕ)) (q q' : ℕ)
    {f m v xi a b : K}
    (hf : f = ((Spec.exceedances side thr (Spec.expand ps)).length : K) / ((Spec.expand ps).length : K))
    (hne : Spec.exceedances side thr (Spec.expand ps) ≠ [])
    (hm : m = Spec.mean (Spec.exceedances side thr (Spec.expand ps)))
    (hv : v = Spec.variance (Spec.exceedances side thr (Spec.expand ps))) (hv0 : v ≠ 0)
    (hxi : xi = Spec.momentXi (Spec.mirrored side thr) m v) (hxi0 : xi ≠ 0)
    (ha : pw f xi = .val a) (hb : pw f (-xi) = .val b) :
    ∃ r, (wpotSet pw side thr).answer (onlyPushes (Spec.withWeights ps) ++ List.replicate q (.query ())) ()
        = .val r ∧
      (potSet pw side thr).answer (onlyPushes (Spec.expand ps) ++ List.replicate q' (.query ())) () = .val r := by
  obtain ⟨es, h1, h2⟩ := wexceedances_withWeights side thr ps
  refine ⟨_, C30_weighted_fit_partial pw side thr (Spec.withWeights ps) q (u := Spec.mirrored side thr) (f := f)
      (m := m) (v := v) (xi := xi) (a := a) (b := b) rfl ?_ ?_ ?_ ?_ ?_ hv0 hxi hxi0 ha hb,
    C30_fit_partial pw side thr (Spec.expand ps) q' rfl hf hne hm hv hv0 hxi hxi0 ha hb⟩
  · rw [hf, h1, h2, length_expand, length_expand]; rfl
  · have : Spec.expand ps ≠ [] := by
      rintro h0
      rw [h0] at hne
      cases side <;> exact hne rfl
    have hp := List.length_pos_of_ne_nil this
    have : Spec.wtotal (Spec.withWeights (K := K) ps) = ((Spec.expand ps).length : K) := (length_expand ps).symm
    rw [this]
    exact_mod_cast hp.ne'
  · rw [h1]
    rw [h2] at hne
    have hp := List.length_pos_of_ne_nil hne
    have : Spec.wtotal (Spec.withWeights (K := K) es) = ((Spec.expand es).length : K) := (length_expand es).symm
    rw [this]
    exact_mod_cast hp.ne'
  · rw [hm, h1, h2, mult_wmean]
  · rw [hv, h1, h2]
    exact (mult_wcentral 2 es).symm

/-! ## Where weights are not multiplicities -/

/-- **C81 fails** for the tail mean when the tail ends within the copies of a sample: the weighted estimator
counts that sample with its whole weight.  Samples 1 and 3 of weights 1 and 3, left tail of level 1/2: the mean
of the two smallest of `1, 3, 3, 3` is 2, the weighted estimator returns 5/2. -/
theorem C81_tail_mean_overshoots :
    nonCoherentTailMean HeapImpl.simple .left true 10 (0 : ℚ) ()
        ((Spec.expand [(1, 1), (3, 3)]).map fun x => .push (x, ())) (1 / 2) = .val 2 ∧
    wtailMean HeapImpl.simple .left true id 10 (0 : ℚ) 0
        ((Spec.withWeights [(1, 1), (3, 3)]).map .push) (1 / 2) = .val (5 / 2) := by
  constructor <;> decide +kernel

/-- **C81 fails** at full level: the unweighted tail quantile rejects a tail that takes the whole cache, the weighted
one does not. -/
theorem C81_full_level :
    tailQuantile HeapImpl.simple .left true 10 (0 : ℚ) ()
        ((Spec.expand [(1, 1), (3, 3)]).map fun x => .push (x, ())) 1 = .nonfinite ∧
    wtailQuantile HeapImpl.simple .left true id 10 (0 : ℚ) 0
        ((Spec.withWeights [(1, 1), (3, 3)]).map .push) 1 = .val 3 := by
  constructor <;> decide +kernel

/-- **C81 fails** for the P² estimators: a heavy sample moves each marker by at most one step, however large its
weight, so seven copies of 9 and one sample 9 of weight 7 give different estimates. -/
theorem C81_p_square :
    (psqQuantileSet (1 / 2)).answer (onlyPushes (Spec.expand [((1 : ℚ), 1), (2, 1), (3, 1), (4, 1), (5, 1), (9, 7)])) ()
      = .val (2779 / 432) ∧
    (wpsqQuantileSet (1 / 2)).answer
      (onlyPushes (Spec.withWeights [((1 : ℚ), 1), (2, 1), (3, 1), (4, 1), (5, 1), (9, 7)])) () = .val 3 := by
  constructor <;> decide +kernel

/-- **C36/C81 fail** for the weighted P² estimators: markers are moved by whole units of weight, so a common factor of
all weights changes the estimate. -/
theorem C81_p_square_scale :
    (wpsqQuantileSet (1 / 2)).answer
      (onlyPushes (Spec.withWeights [((1 : ℚ), 1), (2, 1), (3, 1), (4, 1), (5, 1), (9, 1)])) () = .val 3 ∧
    (wpsqQuantileSet (1 / 2)).answer
      (onlyPushes (Spec.withWeights [((1 : ℚ), 10), (2, 10), (3, 10), (4, 10), (5, 10), (9, 10)])) ()
      = .val (31 / 10) := by
  constructor <;> decide +kernel

/-! ## The hypotheses are met -/

/-- Samples 2, 5, 1 of weights 2, 1, 3: the two smallest of `2, 2, 5, 1, 1, 1` end within the copies of 1. -/
example : ∃ x, wtailQuantile HeapImpl.simple .left true id 3 (0 : ℚ) 0
      ((Spec.withWeights [(2, 2), (5, 1), (1, 3)]).map .push) (1 / 3) = .val x ∧
    tailQuantile HeapImpl.simple .left true 4 (0 : ℚ) ()
      ((Spec.expand [(2, 2), (5, 1), (1, 3)]).map fun x => .push (x, ())) (1 / 3) = .val x :=
  C81_tail_quantile (n := 2) (ps := [(2, 2), (5, 1), (1, 3)]) (v := [3, 2, 1]) HeapImpl.simple HeapImpl.simple
    .left true true 0 0 0 () (by norm_num) (by norm_num) (by decide +kernel) (by decide +kernel)
    (by simp only [Spec.tailCount, Spec.expand]; norm_num) (by norm_num) (by decide +kernel)
    (by decide +kernel) (by decide +kernel)

/-- The same stream at level 5/6: the copies of 1 and 2 are the tail. -/
example : ∃ m, wtailMean HeapImpl.simple .left true id 3 (0 : ℚ) 0
      ((Spec.withWeights [(2, 2), (5, 1), (1, 3)]).map .push) (5 / 6) = .val m ∧
    nonCoherentTailMean HeapImpl.simple .left true 5 (0 : ℚ) ()
      ((Spec.expand [(2, 2), (5, 1), (1, 3)]).map fun x => .push (x, ())) (5 / 6) = .val m :=
  C81_tail_mean (n := 5) (ps := [(2, 2), (5, 1), (1, 3)]) (v := [3, 2, 1]) (x := 2) HeapImpl.simple HeapImpl.simple
    .left true true 0 0 0 () (by norm_num) (by norm_num) (by decide +kernel) (by decide +kernel)
    (by decide +kernel) (by simp only [Spec.tailWeight, Spec.expand]; norm_num) (by norm_num) (by decide +kernel)
    (by norm_num) (by decide +kernel) (by decide +kernel)

/-- Two samples 0 and 4 of weights 2 and 1 fill the cache; the unweighted cache has three places. -/
example : ∃ t, (wdensitySet (-100) 100 2 4 (0 : ℚ)).answer (onlyPushes (Spec.withWeights [(0, 2), (4, 1), (3, 5)])) ()
      = .val t ∧
    (densitySet (-100) 100 3 4 (0 : ℚ)).answer (onlyPushes (Spec.expand [(0, 2), (4, 1), (3, 5)])) () = .val t :=
  C81_density (ps := [(0, 2), (4, 1), (3, 5)]) (by norm_num) (by norm_num) 0 0 (by decide) (by decide +kernel)
    (by decide) (by decide +kernel) (by decide +kernel) (by decide +kernel)

example : ∃ r, (wpotSet (fun _ _ => .val 1) .right 0).answer
      (onlyPushes (Spec.withWeights [((1 : ℚ), 2), (-1, 3), (4, 1)]) ++ List.replicate 0 (.query ())) () = .val r ∧
    (potSet (fun _ _ => .val 1) .right 0).answer
      (onlyPushes (Spec.expand [((1 : ℚ), 2), (-1, 3), (4, 1)]) ++ List.replicate 2 (.query ())) () = .val r :=
  C81_pot (f := 1 / 2) (m := 2) (v := 2) (xi := -1 / 2) (a := 1) (b := 1) (fun _ _ => .val 1) .right 0
    [((1 : ℚ), 2), (-1, 3), (4, 1)] 0 2 (by decide +kernel) (by decide +kernel) (by decide +kernel)
    (by decide +kernel) (by norm_num) (by decide +kernel) (by norm_num) rfl rfl

end Acc
