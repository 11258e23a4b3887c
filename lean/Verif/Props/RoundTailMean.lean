import Verif.Props.RoundTail
import Verif.Props.RoundWeighted
import Verif.Props.RoundKurt

/-!
# C98: tail means under rounding

`C67` bounds the error of the (non-coherent) tail mean and finds the weighted tail quantile.  Here are the weighted tail
mean, whose set of averaged samples depends on a running sum that is itself rounded, the coherent tail mean, and the tail
variate means.
-/

set_option linter.unusedSectionVars false

namespace Acc

variable {K : Type} [Field K] [LinearOrder K] [IsStrictOrderedRing K] {R : Rounding K} {u : K} {V : Type}

/-! ### With weights -/

/-- `std::inner_product` in the order the code uses. -/
theorem innerProduct_foldl {K : Type} [Arith K] (init : K) {n : ℕ} (ps : List (K × K)) (hn : n ≤ ps.length) :
    innerProduct init n (ps.map Prod.fst) (ps.map Prod.snd) = .val ((ps.take n).foldl (fun s p => s + p.1 * p.2) init) := by
  induction ps generalizing init n with
  | nil =>
    have : n = 0 := by simpa using hn
    subst this
    simp [innerProduct]
  | cons p ps ih =>
    cases n with
    | zero => simp [innerProduct]
    | succ n =>
      simp only [List.map_cons, innerProduct, List.take_succ_cons, List.foldl_cons]
      exact ih _ (by simpa using hn)

/-- `C78_lazy_mean`, for the two sums themselves. -/
theorem wmean_quot_err (hu : R.RelErr u) (hu1 : u < 1) (ps : List (Fl R × Fl R)) (hw : ∀ p ∈ ps, 0 ≤ p.2.val)
    (hW : 0 < (ps.map fun p => p.2.val).sum) :
    ∃ m : Fl R, fdiv (ps.foldl (fun s p => s + p.1 * p.2) (0 : Fl R)) (ps.foldl (fun s p => s + p.2) 0) = .val m ∧
      |m.val - (ps.map fun p => p.1.val * p.2.val).sum / (ps.map fun p => p.2.val).sum|
        ≤ ((1 + u) ^ (ps.length + 2) / (1 - u) ^ ps.length - 1) *
          ((ps.map fun p => |p.1.val * p.2.val|).sum / (ps.map fun p => p.2.val).sum) := by
  obtain ⟨m, e, hm⟩ := C78_lazy_mean hu hu1 ps hw hW
  have z : (0 * 1 : Fl R) = 0 := by
    apply Fl.ext
    rw [Fl.val_mul, Fl.val_one, mul_one, Fl.rd_val]
  have hs : ∀ ps : List (Fl R × Fl R), (lazyWMean (0 : Fl R)).run ps
      = ⟨ps.foldl (fun s p => s + p.2) 0, ps.foldl (fun s p => s + p.1 * p.2) 0⟩ := by
    intro ps
    induction ps using List.reverseRecOn with
    | nil => simp [MeanProvider.run, lazyWMean, z]
    | append_singleton l a ih =>
      unfold MeanProvider.run at ih ⊢
      rw [List.foldl_append, ih]
      simp [lazyWMean, weightedSumStep, sumStep]
  rw [hs] at e
  exact ⟨m, e, hm⟩

/-- **C98** The weighted tail mean computed in floating point is the weighted mean of the most extreme samples up to the point
where the accumulated weight reaches the wanted share, both up to the error of the sums: if it returns a value `m`, then `m`
is close to the weighted mean of some samples `sel`, the most extreme ones, which carry the share minus `ε` while without the
last they carry less than the share plus `ε`.  It does return a value if the share exceeds `ε` and the weights listed by
`tail_weights(acc)` add up to the share plus `ε`. -/
theorem C98_weighted_mean (hu : R.RelErr u) (hu1 : u < 1) (H : HeapImpl ℕ) (side : Side) (hasNaN : Bool) {wt : V → Fl R} {k : ℕ}
    (hk : 1 ≤ k) (x0 : Fl R) (v0 : V) (h : List (Op (Fl R × V) Unit)) (hw : ∀ q ∈ pushes h, 0 ≤ wt q.2) {p : K} (h0 : 0 ≤ p)
    (h1 : p ≤ 1) {ps : List (K × V)} (hps : ps = (pushes h).map fun q => (q.1.val, q.2)) {T ε : K}
    (hT : T = Spec.tailWeight side (Spec.totalWeight (fun v => (wt v).val) ps) p)
    (hε : ε = 2 * ((1 + u) ^ (ps.length + 3) - 1) * Spec.totalWeight (fun v => (wt v).val) ps) :
    (∀ m : Fl R, wtailMean H side hasNaN wt k x0 v0 h (Fl.ofK R p) = .val m →
      ∃ sel : List (K × V), sel.Subperm ps ∧ sel.map Prod.fst = Spec.extremes side sel.length (ps.map Prod.fst) ∧
        T - ε ≤ Spec.totalWeight (fun v => (wt v).val) sel ∧
        (∀ j < sel.length, Spec.totalWeight (fun v => (wt v).val) (sel.take j) < T + ε) ∧
        |m.val - Spec.wmean (sel.map fun q => (q.1, (wt q.2).val))|
          ≤ ((1 + u) ^ (sel.length + 2) / (1 - u) ^ sel.length - 1) *
            Spec.wmean (sel.map fun q => (|q.1|, (wt q.2).val))) ∧
    (ε < T → (∀ v, extractTailVariate H side k x0 v0 h = .val v → T + ε ≤ (v.map fun v => (wt v).val).sum) →
      ∃ m, wtailMean H side hasNaN wt k x0 v0 h (Fl.ofK R p) = .val m) := by
  have hu0 := hu.nonneg
  obtain ⟨out, D, ht, hv', hp, hD, hex, hs, -, hm⟩ := wtail_out H side hk x0 v0 h
  rw [hm]
  have hwo : ∀ q ∈ out, 0 ≤ wt q.2 := fun q hq => hw q (hp.mem_iff.1 (List.mem_append_left _ hq))
  have hthr := threshold_err hu side ((pushes h).map fun q => wt q.2) (by
    intro w hw'
    obtain ⟨q, hq', rfl⟩ := List.mem_map.1 hw'
    exact hw q hq') h0 h1
  have hlen : ps.length = (pushes h).length := by rw [hps]; simp
  have hWs : (((pushes h).map fun q => wt q.2).map Fl.val).sum = Spec.totalWeight (fun v => (wt v).val) ps := by
    rw [hps]; simp only [Spec.totalWeight, List.map_map]; rfl
  have hTs : Spec.totalWeight (fun v => (wt v).val) ps * tailLevel side p = T := by
    rw [hT]; cases side <;> rfl
  rw [hWs, List.length_map, ← hlen, hTs] at hthr
  have hol : out.length ≤ ps.length := by
    rw [hlen, ← hp.length_eq, List.length_append]; omega
  have hp' : ((out.map fun q => (q.1.val, q.2)) ++ D.map fun q => (q.1.val, q.2)).Perm ps := by
    rw [hps, ← List.map_append]; exact hp.map _
  have hw' : ∀ q ∈ ps, 0 ≤ (wt q.2).val := by
    intro q hq
    rw [hps] at hq
    obtain ⟨q', hq', rfl⟩ := List.mem_map.1 hq
    exact hw q' hq'
  have hWle : Spec.totalWeight (fun v => (wt v).val) (out.map fun q => (q.1.val, q.2))
      ≤ Spec.totalWeight (fun v => (wt v).val) ps := by
    rw [← totalWeight_perm hp', totalWeight_append]
    have : 0 ≤ Spec.totalWeight (fun v => (wt v).val) (D.map fun q => (q.1.val, q.2)) :=
      totalWeight_nonneg fun q hq => hw' q (hp'.mem_iff.1 (List.mem_append_right _ hq))
    linarith
  have hpre : ∀ n, |(((out.map fun q : Fl R × V => wt q.2).take n).foldl (· + ·) 0).val
      - Spec.totalWeight (fun v => (wt v).val) ((out.take n).map fun q => (q.1.val, q.2))|
        ≤ ((1 + u) ^ (ps.length + 3) - 1) * Spec.totalWeight (fun v => (wt v).val) ps := by
    intro n
    have := prefix_err hu (out.map fun q => wt q.2) (by
      intro w hw'
      obtain ⟨q, hq', rfl⟩ := List.mem_map.1 hw'
      exact hwo q hq') n (N := ps.length + 3) (by rw [List.length_map]; omega)
    have e1 : (((out.map fun q => wt q.2).map Fl.val).take n).sum
        = Spec.totalWeight (fun v => (wt v).val) ((out.take n).map fun q => (q.1.val, q.2)) := by
      simp only [Spec.totalWeight, List.map_map, ← List.map_take]; rfl
    have e2 : ((out.map fun q => wt q.2).map Fl.val).sum
        = Spec.totalWeight (fun v => (wt v).val) (out.map fun q => (q.1.val, q.2)) := by
      simp only [Spec.totalWeight, List.map_map]; rfl
    rw [e1, e2] at this
    refine this.trans (mul_le_mul_of_nonneg_left hWle ?_)
    have : 1 ≤ (1 + u) ^ (ps.length + 3) := one_le_pow₀ (by linarith)
    linarith
  have hε0 : 0 ≤ ((1 + u) ^ (ps.length + 3) - 1) * Spec.totalWeight (fun v => (wt v).val) ps :=
    (abs_nonneg _).trans hthr
  have ht' := abs_le.1 hthr
  have hε' : ε = 2 * (((1 + u) ^ (ps.length + 3) - 1) * Spec.totalWeight (fun v => (wt v).val) ps) := by rw [hε]; ring
  unfold wtailMeanResult
  rcases wtailLoop_cases (nanOrThrow hasNaN) (wtailThreshold side ((pushes h).map fun q => wt q.2) (Fl.ofK R p)) 0 0
      (out.map fun q => wt q.2) with ⟨n, hn, hlt, hge, he⟩ | ⟨hall, he⟩
  · rw [List.length_map] at hn
    have hip := innerProduct_foldl (0 : Fl R) (n := n) (out.map fun q => (q.1, wt q.2)) (by simpa using hn)
    rw [List.map_map, List.map_map] at hip
    rw [he, Res.val_bind]
    simp only [Nat.zero_add]
    have hip' : innerProduct (0 : Fl R) n (out.map Prod.fst) (out.map fun q => wt q.2)
        = .val (((out.take n).map fun q => (q.1, wt q.2)).foldl (fun s p => s + p.1 * p.2) 0) := by
      rw [List.map_take]; exact hip
    rw [hip', Res.val_bind]
    have hsum : ((out.map fun q => wt q.2).take n).foldl (· + ·) (0 : Fl R)
        = ((out.take n).map fun q => (q.1, wt q.2)).foldl (fun s p => s + p.2) 0 := by
      rw [← List.map_take, List.foldl_map, List.foldl_map]
    rw [hsum]
    have hl : (out.take n).length = n := by rw [List.length_take]; omega
    have hW : ((((out.take n).map fun q => (q.1, wt q.2))).map fun p => p.2.val).sum
        = Spec.totalWeight (fun v => (wt v).val) ((out.take n).map fun q => (q.1.val, q.2)) := by
      simp only [Spec.totalWeight, List.map_map]; rfl
    have hnn : ∀ q ∈ (out.take n).map fun q => (q.1, wt q.2), 0 ≤ q.2.val := by
      intro q hq
      obtain ⟨q', hq', rfl⟩ := List.mem_map.1 hq
      exact hwo q' (List.mem_of_mem_take hq')
    by_cases hpos : 0 < Spec.totalWeight (fun v => (wt v).val) ((out.take n).map fun q => (q.1.val, q.2))
    · obtain ⟨m, em, hm⟩ := wmean_quot_err hu hu1 ((out.take n).map fun q => (q.1, wt q.2)) hnn (by rw [hW]; exact hpos)
      refine ⟨fun m' hm' => ?_, fun _ _ => ⟨m, em⟩⟩
      obtain rfl : m = m' := Res.val.inj (em.symm.trans hm')
      refine ⟨(out.take n).map fun q => (q.1.val, q.2), ?_, ?_, ?_, ?_, ?_⟩
      · rw [List.map_take]
        exact ((List.take_sublist n _).trans (List.sublist_append_left _ _)).subperm.trans hp'.subperm
      · rw [List.length_map, hl]
        have hexk : (out.map fun q => (q.1.val, q.2)).map Prod.fst = Spec.extremes side k (ps.map Prod.fst) := by
          have hpf := hp'.map Prod.fst
          rw [List.map_append] at hpf
          have hlen := congrArg List.length hex
          rw [extremes_length, List.length_map, List.length_map] at hlen
          refine eq_extremes hpf (by
            rw [List.length_map, List.length_map, List.length_map]; omega) ?_ ?_
          · rw [List.pairwise_map, List.pairwise_map]
            exact hs.imp fun h => geExt_val.2 h
          · intro d hd c hc
            simp only [List.map_map, List.mem_map] at hd hc
            obtain ⟨d', hd', rfl⟩ := hd
            obtain ⟨c', hc', rfl⟩ := hc
            exact geExt_val.2 (hD d' hd' c' hc')
        have hlen := congrArg List.length hex
        rw [extremes_length, List.length_map, List.length_map] at hlen
        rw [List.map_take, List.map_take, hexk, extremes_take side (by omega)]
      · have h1 := (abs_le.1 (hpre n)).2
        have h2 := Fl.le_iff.1 hge
        linarith [ht'.1]
      · intro j hj
        rw [List.length_map, hl] at hj
        have h1 := (abs_le.1 (hpre j)).1
        have h2 := Fl.lt_iff.1 (hlt j hj)
        rw [← List.map_take, List.take_take, Nat.min_eq_left hj.le]
        linarith [ht'.2]
      · have a1 : Spec.wmean (((out.take n).map fun q => (q.1.val, q.2)).map fun q => (q.1, (wt q.2).val))
            = (((out.take n).map fun q => (q.1, wt q.2)).map fun p => p.1.val * p.2.val).sum /
              (((out.take n).map fun q => (q.1, wt q.2)).map fun p => p.2.val).sum := by
          simp only [Spec.wmean, Spec.wtotal, List.map_map, Function.comp_def, mul_comm]
        have a2 : Spec.wmean (((out.take n).map fun q => (q.1.val, q.2)).map fun q => (|q.1|, (wt q.2).val))
            = (((out.take n).map fun q => (q.1, wt q.2)).map fun p => |p.1.val * p.2.val|).sum /
              (((out.take n).map fun q => (q.1, wt q.2)).map fun p => p.2.val).sum := by
          simp only [Spec.wmean, Spec.wtotal, List.map_map, Function.comp_def]
          congr 2
          refine List.map_congr_left fun q hq => ?_
          rw [abs_mul, abs_of_nonneg (show 0 ≤ (wt q.2).val from hwo q (List.mem_of_mem_take hq)), mul_comm]
        rw [a1, a2]
        simpa using hm
    · obtain ⟨b1, b2⟩ := sumW_bounds hu hu1 Prod.snd ((out.take n).map fun q => (q.1, wt q.2)) hnn
      have hq0 : 0 < (1 - u) ^ ((out.take n).map fun q => (q.1, wt q.2)).length := pow_pos (by linarith) _
      rw [hW] at b1 b2
      have hW0 : 0 ≤ Spec.totalWeight (fun v => (wt v).val) ((out.take n).map fun q => (q.1.val, q.2)) :=
        totalWeight_nonneg fun q hq => by
          obtain ⟨q', hq', rfl⟩ := List.mem_map.1 hq
          exact hwo q' (List.mem_of_mem_take hq')
      have hWz : Spec.totalWeight (fun v => (wt v).val) ((out.take n).map fun q => (q.1.val, q.2)) = 0 :=
        le_antisymm (not_lt.1 hpos) hW0
      rw [hWz] at b1 b2
      have hz : (sumRun Prod.snd (0 : Fl R) ((out.take n).map fun q => (q.1, wt q.2))).val = 0 := by
        refine le_antisymm ?_ (by simpa using b1)
        by_contra hc
        exact absurd b2 (not_le.2 (mul_pos hq0 (not_le.1 hc)))
      have hz' : ((out.take n).map fun q => (q.1, wt q.2)).foldl (fun s p => s + p.2) (0 : Fl R) = 0 := Fl.ext hz
      rw [hz']
      refine ⟨fun m hm => by simp [fdiv] at hm, fun hεT _ => ?_⟩
      have h1 := (abs_le.1 (hpre n)).2
      have h2 := Fl.le_iff.1 hge
      rw [hWz] at h1
      linarith [ht'.1]
  · rw [he]
    refine ⟨fun x hx => ?_, fun _ hv => ?_⟩
    · unfold nanOrThrow at hx
      cases hasNaN <;> simp at hx
    · have h1 := hv _ hv'
      have h2 := Fl.lt_iff.1 (hall _ le_rfl)
      have h3 := (abs_le.1 (hpre (out.map fun q : Fl R × V => wt q.2).length)).1
      have h4 : Spec.totalWeight (fun v => (wt v).val)
          ((out.take (out.map fun q : Fl R × V => wt q.2).length).map fun q => (q.1.val, q.2))
          = ((out.map Prod.snd).map fun v => (wt v).val).sum := by
        rw [List.take_of_length_le (by simp)]
        simp only [Spec.totalWeight, List.map_map]
        rfl
      rw [h4] at h3
      linarith [ht'.2]

/-! ### Without weights -/

section rank
variable [FloorRing K]

theorem mem_extremes {α : Type} [LinearOrder α] {side : Side} {n : ℕ} {xs : List α} {x : α} (h : x ∈ Spec.extremes side n xs) :
    x ∈ xs := (byExtremity_perm side xs).mem_iff.1 (List.mem_of_mem_take h)

theorem abs_mean_le_of_mem {l : List K} {B : K} {n : ℕ} (hl : l.length = n) (h1 : 1 ≤ n) (hB : ∀ x ∈ l, |x| ≤ B) :
    (l.map fun x => |x|).sum / n ≤ B := by
  have hn : (0 : K) < n := by exact_mod_cast h1
  rw [div_le_iff₀ hn]
  have := List.sum_le_card_nsmul (l.map fun x => |x|) B (by
    intro y hy
    obtain ⟨x, hx, rfl⟩ := List.mem_map.1 hy
    exact hB x hx)
  rw [List.length_map, hl, nsmul_eq_mul] at this
  linarith

/-- The tail mean, as an approximation to the mean of the `n` most extreme samples. -/
theorem near_tailMean (hu : R.RelErr u) (H : HeapImpl ℕ) (side : Side) (hasNaN : Bool) {k : ℕ} (hk : 1 ≤ k) (x0 : Fl R)
    (v0 : V) (h : List (Op (Fl R × V) Unit)) {p : Fl R} {n : ℕ} (hn : tailN side (pushes h).length p = .val n)
    (hc : R.rd (n : K) = n) (h1 : 1 ≤ n) (h2 : n ≤ min k (pushes h).length) {B : K}
    (hB : ∀ q ∈ pushes h, |q.1.val| ≤ B) :
    ∃ m : Fl R, nonCoherentTailMean H side hasNaN k x0 v0 h p = .val m ∧
      Near u (n + 1) m (Spec.mean ((Spec.extremes side n ((pushes h).map Prod.fst)).map Fl.val)) B := by
  have h0 := hu.nonneg
  obtain ⟨m, e, hm⟩ := C67_tail_mean hu H side hasNaN hk x0 v0 h hn hc h1 h2
  have hl : ((Spec.extremes side n ((pushes h).map Prod.fst)).map Fl.val).length = n := by
    rw [List.length_map, extremes_length, List.length_map]; omega
  have hB' : ∀ x ∈ (Spec.extremes side n ((pushes h).map Prod.fst)).map Fl.val, |x| ≤ B := by
    intro x hx
    obtain ⟨y, hy, rfl⟩ := List.mem_map.1 hx
    obtain ⟨q, hq, rfl⟩ := List.mem_map.1 (mem_extremes hy)
    exact hB q hq
  have hA := abs_mean_le_of_mem hl h1 hB'
  rw [List.map_map] at hA
  have hn0 : (0 : K) < n := by exact_mod_cast h1
  refine ⟨m, e, ?_, ?_⟩
  · unfold Spec.mean
    rw [hl, abs_div, abs_of_pos hn0]
    refine le_trans (div_le_div_of_nonneg_right ?_ hn0.le) hA
    exact abs_sum_le Fl.val _
  · unfold Spec.mean
    rw [hl]
    refine hm.trans (mul_le_mul_of_nonneg_left hA ?_)
    have : 1 ≤ (1 + u) ^ (n + 1) := one_le_pow₀ (by linarith)
    linarith

/-- **C98** The coherent tail mean computed in floating point is its formula for the computed rank `n`, evaluated exactly, up
to `n + 6` roundings.  (The formula is the one of the code, which for the left tail lacks a term, see C20.) -/
theorem C98_coherent (hu : R.RelErr u) (H : HeapImpl ℕ) (side : Side) (hasNaN : Bool) {k : ℕ} (hk : 1 ≤ k) (x0 : Fl R)
    (v0 : V) (h : List (Op (Fl R × V) Unit)) {p : K} (h0 : 0 ≤ p) (h1 : p ≤ 1) {n : ℕ}
    (hn : tailN side (pushes h).length (Fl.ofK R p) = .val n) (hc : R.rd (n : K) = n)
    (hcc : R.rd ((pushes h).length : K) = (pushes h).length) (hn1 : 1 ≤ n) (hn2 : n < min k (pushes h).length) {B : K}
    (hB : ∀ q ∈ pushes h, |q.1.val| ≤ B) :
    ∃ m q : Fl R, coherentTailMean H side hasNaN k x0 v0 h (Fl.ofK R p) = .val m ∧
      (Spec.byExtremity side ((pushes h).map Prod.fst))[n - 1]? = some q ∧
      |m.val - (Spec.mean ((Spec.extremes side n ((pushes h).map Prod.fst)).map Fl.val) +
        q.val / n * (match (generalizing := false) side with | .left => p | .right => 1 - p - (n : K) / (pushes h).length))|
        ≤ ((1 + u) ^ (n + 6) - 1) * (B + 2 * B / n) := by
  have hu0 := hu.nonneg
  obtain ⟨a, ea, na⟩ := near_tailMean hu H side hasNaN hk x0 v0 h hn hc hn1 (by omega) hB
  obtain ⟨q, eq, hq⟩ := tailQuantile_of_rank H side hasNaN x0 v0 h hk hn hn1 hn2
  obtain ⟨s, out, hr, ht, _, h3, _⟩ := extract_both H side hk x0 v0 h
  have hqB : |q.val| ≤ B := by
    obtain ⟨q', hq', e⟩ := List.mem_map.1 ((byExtremity_perm side _).mem_iff.1 (List.mem_of_getElem? hq))
    rw [← e]; exact hB q' hq'
  have hB0 : 0 ≤ B := (abs_nonneg _).trans hqB
  have hn0 : (0 : K) < n := by exact_mod_cast hn1
  have hnc : (n : K) ≤ ((pushes h).length : K) := by exact_mod_cast (show n ≤ (pushes h).length by omega)
  have hnne : ((n : ℕ) : Fl R) ≠ 0 := fun e => by
    have := congrArg Fl.val e
    rw [Fl.val_natCast, hc, Fl.val_zero] at this
    exact hn0.ne' this
  have hcne : (((pushes h).length : ℕ) : Fl R) ≠ 0 := fun e => by
    have := congrArg Fl.val e
    rw [Fl.val_natCast, hcc, Fl.val_zero] at this
    linarith
  have nq : Near u 1 (q / ((n : ℕ) : Fl R)) (q.val / n) (B / n) := by
    have hb : |q.val / n| ≤ B / n := by
      rw [abs_div, abs_of_pos hn0]; exact div_le_div_of_nonneg_right hqB hn0.le
    refine ⟨hb, ?_⟩
    rw [Fl.val_div, Fl.val_natCast, hc]
    refine (hu _).trans ?_
    rw [pow_one, add_sub_cancel_left]
    exact mul_le_mul_of_nonneg_left hb hu0
  have nr : Near u 1 (((n : ℕ) : Fl R) / (((pushes h).length : ℕ) : Fl R)) ((n : K) / (pushes h).length) 1 := by
    have hb : |(n : K) / (pushes h).length| ≤ 1 := by
      rw [abs_of_nonneg (by positivity)]
      exact div_le_one_of_le₀ hnc (by positivity)
    refine ⟨hb, ?_⟩
    rw [Fl.val_div, Fl.val_natCast, Fl.val_natCast, hc, hcc]
    refine (hu _).trans ?_
    rw [pow_one, add_sub_cancel_left]
    exact mul_le_mul_of_nonneg_left hb hu0
  have nf : Near u 3 (match (generalizing := false) side with
      | .left => Fl.ofK R p
      | .right => 1 - Fl.ofK R p - ((n : ℕ) : Fl R) / (((pushes h).length : ℕ) : Fl R))
      (match (generalizing := false) side with | .left => p | .right => 1 - p - (n : K) / (pushes h).length) 2 := by
    have hl := level_err hu side h0 h1
    have hm := level_mem (side := side) h0 h1
    have hpow : 2 * u ≤ (1 + u) ^ 2 - 1 := by nlinarith
    have hpow3 : (1 + u) ^ 2 ≤ (1 + u) ^ 3 := pow_le_pow_right₀ (by linarith) (by norm_num)
    cases side with
    | left =>
      simp only [tailLevel] at hl hm ⊢
      refine ⟨by rw [abs_of_nonneg hm.1]; linarith, hl.2.2.trans ?_⟩
      linarith
    | right =>
      simp only [tailLevel] at hl hm ⊢
      have := Near.sub hu (c := 2) (a := 1 - Fl.ofK R p) (t := 1 - p) (A := 1) ⟨by rw [abs_of_nonneg hm.1]; exact hm.2, by
        rw [mul_one]; exact hl.2.2.trans hpow⟩ (nr.mono hu0 (by norm_num))
      norm_num at this
      exact this
  have hN := ((na.mono hu0 (show n + 1 ≤ n + 5 by omega)).add hu ((nq.mul hu nf).mono hu0 (show 1 + 3 + 1 ≤ n + 5 by omega)))
  refine ⟨a + q / ((n : ℕ) : Fl R) * (match (generalizing := false) side with
      | .left => Fl.ofK R p
      | .right => 1 - Fl.ofK R p - ((n : ℕ) : Fl R) / (((pushes h).length : ℕ) : Fl R)), q, ?_, hq, ?_⟩
  rotate_left
  · refine hN.2.trans (le_of_eq ?_)
    ring
  · simp only [nonCoherentTailMean, tailQuantile, hr, Res.val_bind, hn, ht] at ea eq
    simp only [coherentTailMean, hr, Res.val_bind, hn, ht, coherentTailMeanResult, coherentTailMeanOf, ea, eq]
    simp only [fdiv, if_neg hnne, if_neg hcne, Res.val_bind]
    rfl

theorem vecAdd_map {K : Type} [Arith K] {d : ℕ} {f : ℕ → K} {v : List K} (hv : v.length = d) :
    vecAdd ((List.range d).map f) v = .val ((List.range d).map (fun j => f j + v.getD j 0)) := by
  induction v generalizing d f with
  | nil => subst hv; rfl
  | cons a v ih =>
    subst hv
    rw [List.length_cons, List.range_succ_eq_map]
    simp only [List.map_cons, List.map_map, vecAdd]
    rw [ih (f := f ∘ Nat.succ) rfl]
    simp [Function.comp_def]

/-- `vecAccumulate`, in the order the code uses. -/
theorem vecAccumulate_foldl {K : Type} [Arith K] {d : ℕ} {vs : List (List K)} {f : ℕ → K} (hv : ∀ v ∈ vs, v.length = d) :
    vecAccumulate ((List.range d).map f) vs =
      .val ((List.range d).map fun j => vs.foldl (fun s v => s + v.getD j 0) (f j)) := by
  induction vs generalizing f with
  | nil => simp [vecAccumulate]
  | cons v vs ih =>
    rw [vecAccumulate, vecAdd_map (hv v (by simp)), Res.val_bind, ih (fun w hw => hv w (by simp [hw]))]
    simp only [List.foldl_cons]

theorem vecDiv_map {K : Type} [Arith K] [DecidableEq K] {c : K} (hc : c ≠ 0) (l : List K) :
    vecDiv c l = .val (l.map fun x => x / c) := by
  induction l with
  | nil => rfl
  | cons a l ih => simp [vecDiv, fdiv, hc, ih]

/-- The tail variate means in terms of the selected pairs, for the rank the arithmetic makes it. -/
theorem tailVariateMeans_of_rank (H : HeapImpl ℕ) (side : Side) (hasNaN : Bool) {k d : ℕ} (hk : 1 ≤ k) (x0 : Fl R)
    (v0 : List (Fl R)) (h : List (Op (Fl R × List (Fl R)) Unit)) {p : Fl R} {n : ℕ}
    (hn : tailN side (pushes h).length p = .val n) (h1 : 1 ≤ n) (h2 : n < min k (pushes h).length)
    (hd : ∀ q ∈ pushes h, q.2.length = d) :
    ∃ sel : List (Fl R × List (Fl R)), sel.Subperm (pushes h) ∧ sel.length = n ∧
      sel.map Prod.fst = Spec.extremes side n ((pushes h).map Prod.fst) ∧
      tailVariateMeans H side false hasNaN k x0 v0 h p = vecDiv ((n : ℕ) : Fl R)
        ((List.range d).map fun j => sel.foldl (fun s q => s + q.2.getD j 0) 0) ∧
      ∀ m, nonCoherentTailMean H side hasNaN k x0 v0 h p = .val m →
        tailVariateMeans H side true hasNaN k x0 v0 h p = vecDiv (((n : ℕ) : Fl R) * m)
          ((List.range d).map fun j => sel.foldl (fun s q => s + q.2.getD j 0) 0) := by
  obtain ⟨s, out, hr, ht, hv, h3, D, h5, _⟩ := extract_both H side hk x0 v0 h
  have hl := extremes_length side k ((pushes h).map Prod.fst)
  rw [← h3] at hl
  have hl' : out.length = min k (pushes h).length := by simpa using hl
  have hdim : ∀ v ∈ ((out.map Prod.snd).take n), v.length = d := by
    intro v hv
    obtain ⟨q, hq, rfl⟩ := List.mem_map.mp (List.mem_of_mem_take hv)
    exact hd q (h5.mem_iff.mp (List.mem_append_left _ hq))
  have hacc : ∀ d' : List (Fl R), d'.length = d →
      vecAccumulate (List.replicate d'.length (0 : Fl R)) ((out.map Prod.snd).take n) =
      .val ((List.range d).map fun j => (out.take n).foldl (fun s q => s + q.2.getD j 0) 0) := by
    intro d' hd'
    have e : List.replicate d'.length (0 : Fl R) = (List.range d).map (fun _ => (0 : Fl R)) := by
      rw [hd', List.map_const', List.length_range]
    rw [e, vecAccumulate_foldl hdim]
    congr 1
    apply List.map_congr_left
    intro j _
    rw [← List.map_take, List.foldl_map]
  have hcons : ∃ v vs, out.map Prod.snd = v :: vs ∧ v.length = d := by
    cases hout : out with
    | nil => rw [hout] at hl'; simp at hl'; omega
    | cons q qs =>
      exact ⟨q.2, qs.map Prod.snd, rfl,
        hd q (h5.mem_iff.mp (List.mem_append_left _ (by rw [hout]; simp)))⟩
  obtain ⟨v, vs, hcs, hvd⟩ := hcons
  refine ⟨out.take n, ((List.take_sublist n out).trans (List.sublist_append_left out D)).subperm.trans h5.subperm,
    by rw [List.length_take]; omega, ?_, ?_, ?_⟩
  · rw [List.map_take, h3, extremes_take side (by omega)]
  · simp only [tailVariateMeans, hr, Res.val_bind, hn, ht, hv, tailVariateMeansResult, tailVariateMeansOf]
    rw [hcs]
    simp only []
    rw [← hcs, if_pos (by rw [List.length_map]; omega), hacc v hvd]
    simp only [Res.val_bind, Bool.false_eq_true, if_false]
  · intro m hm
    simp only [nonCoherentTailMean, hr, Res.val_bind, hn, ht] at hm
    simp only [tailVariateMeans, hr, Res.val_bind, hn, ht, hv, tailVariateMeansResult, tailVariateMeansOf]
    rw [hcs]
    simp only []
    rw [← hcs, if_pos (by rw [List.length_map]; omega), hacc v hvd]
    simp only [Res.val_bind, if_true, hm]

/-- A column of variates, summed with rounding. -/
theorem column_err (hu : R.RelErr u) (sel : List (Fl R × List (Fl R))) (j : ℕ) {C : K}
    (hC : ∀ q ∈ sel, |(q.2.getD j 0).val| ≤ C) :
    |(sel.foldl (fun s q => s + q.2.getD j 0) (0 : Fl R)).val - (sel.map fun q => (q.2.getD j 0).val).sum|
      ≤ ((1 + u) ^ sel.length - 1) * (sel.length * C) ∧
    |(sel.map fun q => (q.2.getD j 0).val).sum| ≤ sel.length * C := by
  have h0 := hu.nonneg
  have h := foldl_add_err hu (fun q : Fl R × List (Fl R) => q.2.getD j 0) (fun q => (q.2.getD j 0).val) (d := 0) le_rfl
    (fun a => by simp) 0 sel
  simp only [Fl.val_zero, abs_zero, zero_add, add_zero, mul_one] at h
  have hs : (sel.map fun q => |(q.2.getD j 0).val|).sum ≤ sel.length * C := by
    have := List.sum_le_card_nsmul (sel.map fun q => |(q.2.getD j 0).val|) C (by
      intro y hy
      obtain ⟨x, hx, rfl⟩ := List.mem_map.1 hy
      exact hC x hx)
    rwa [List.length_map, nsmul_eq_mul] at this
  refine ⟨h.trans (mul_le_mul_of_nonneg_left hs ?_), (abs_sum_le _ sel).trans hs⟩
  have : 1 ≤ (1 + u) ^ sel.length := one_le_pow₀ (by linarith)
  linarith

/-- **C98** Absolute tail variate means: each component is the mean of that component over the pairs of the `n` most extreme
samples, `n` being the computed rank, up to `n + 1` roundings. -/
theorem C98_variate (hu : R.RelErr u) (H : HeapImpl ℕ) (side : Side) (hasNaN : Bool) {k d : ℕ} (hk : 1 ≤ k) (x0 : Fl R)
    (v0 : List (Fl R)) (h : List (Op (Fl R × List (Fl R)) Unit)) {p : Fl R} {n : ℕ}
    (hn : tailN side (pushes h).length p = .val n) (hc : R.rd (n : K) = n) (h1 : 1 ≤ n) (h2 : n < min k (pushes h).length)
    (hd : ∀ q ∈ pushes h, q.2.length = d) {C : K} (hC : ∀ q ∈ pushes h, ∀ v ∈ q.2, |v.val| ≤ C) :
    ∃ (sel : List (Fl R × List (Fl R))) (w : ℕ → Fl R), sel.Subperm (pushes h) ∧
      sel.map Prod.fst = Spec.extremes side n ((pushes h).map Prod.fst) ∧
      tailVariateMeans H side false hasNaN k x0 v0 h p = .val ((List.range d).map w) ∧
      ∀ j < d, |(w j).val - Spec.mean (sel.map fun q => (q.2.getD j 0).val)| ≤ ((1 + u) ^ (n + 1) - 1) * C := by
  have h0 := hu.nonneg
  obtain ⟨sel, e1, e2, e3, e4, -⟩ := tailVariateMeans_of_rank H side hasNaN hk x0 v0 h hn h1 h2 hd
  have hn0 : (0 : K) < n := by exact_mod_cast h1
  have hnne : ((n : ℕ) : Fl R) ≠ 0 := fun e => by
    have := congrArg Fl.val e
    rw [Fl.val_natCast, hc, Fl.val_zero] at this
    exact hn0.ne' this
  rw [vecDiv_map hnne, List.map_map] at e4
  refine ⟨sel, _, e1, e3, e4, fun j hj => ?_⟩
  have hC' : ∀ q ∈ sel, |(q.2.getD j 0).val| ≤ C := by
    intro q hq
    have hq' := e1.subset hq
    refine hC q hq' _ ?_
    rw [List.getD_eq_getElem?_getD, List.getElem?_eq_getElem (by rw [hd q hq']; exact hj), Option.getD_some]
    exact List.getElem_mem _
  obtain ⟨a, b⟩ := column_err hu sel j hC'
  simp only [Function.comp_apply, Spec.mean, List.length_map]
  rw [e2] at a b ⊢
  rw [Fl.val_div, Fl.val_natCast, hc]
  have r := near_sum_arith hu (c := n) (z := (sel.foldl (fun s q => s + q.2.getD j 0) (0 : Fl R)).val / n)
    (t := (sel.map fun q => (q.2.getD j 0).val).sum / n) (A := C) (by
      rw [abs_div, abs_of_pos hn0, div_le_iff₀ hn0]; linarith) (by
      rw [← sub_div, abs_div, abs_of_pos hn0, div_le_iff₀ hn0]; linarith)
  exact r

/-- `quot_err` for a denominator of either sign. -/
theorem quot_err_ne {a t b s α β : K} (hs : s ≠ 0) (ha : |a - t| ≤ α) (hb : |b - s| ≤ β) (hβ : 2 * β ≤ |s|) :
    b ≠ 0 ∧ |a / b - t / s| ≤ 2 * (α + |t / s| * β) / |s| := by
  rcases lt_or_gt_of_ne hs with h | h
  · rw [abs_of_neg h] at hβ ⊢
    obtain ⟨x, y⟩ := quot_err (a := -a) (t := -t) (b := -b) (s := -s) (α := α) (β := β) (by linarith)
      (by rw [← neg_sub', abs_neg]; exact ha) (by rw [← neg_sub', abs_neg]; exact hb) hβ
    refine ⟨fun e => by rw [e] at x; simp at x, ?_⟩
    rwa [neg_div_neg_eq, neg_div_neg_eq] at y
  · rw [abs_of_pos h] at hβ ⊢
    obtain ⟨x, y⟩ := quot_err h ha hb hβ
    exact ⟨x.ne', y⟩

/-- **C98** Relative tail variate means: close to the ratio of the two means, provided the mean of the tail is not itself
lost in rounding errors. -/
theorem C98_variate_relative (hu : R.RelErr u) (H : HeapImpl ℕ) (side : Side) (hasNaN : Bool) {k d : ℕ} (hk : 1 ≤ k) (x0 : Fl R)
    (v0 : List (Fl R)) (h : List (Op (Fl R × List (Fl R)) Unit)) {p : Fl R} {n : ℕ}
    (hn : tailN side (pushes h).length p = .val n) (hc : R.rd (n : K) = n) (h1 : 1 ≤ n) (h2 : n < min k (pushes h).length)
    (hd : ∀ q ∈ pushes h, q.2.length = d) {B C : K} (hB : ∀ q ∈ pushes h, |q.1.val| ≤ B)
    (hC : ∀ q ∈ pushes h, ∀ v ∈ q.2, |v.val| ≤ C) {M δ : K}
    (hM : M = Spec.mean ((Spec.extremes side n ((pushes h).map Prod.fst)).map Fl.val)) (hM0 : M ≠ 0)
    (hδ : δ = (1 + u) ^ (n + 2) - 1) (hsmall : 2 * (δ * B) ≤ |M|) :
    ∃ (sel : List (Fl R × List (Fl R))) (w : ℕ → Fl R), sel.Subperm (pushes h) ∧
      sel.map Prod.fst = Spec.extremes side n ((pushes h).map Prod.fst) ∧
      tailVariateMeans H side true hasNaN k x0 v0 h p = .val ((List.range d).map w) ∧
      ∀ j < d, ∀ r, r = Spec.mean (sel.map fun q => (q.2.getD j 0).val) / M →
        |(w j).val - r| ≤ (1 + u) * (2 * δ * (C + |r| * B) / |M|) + u * |r| := by
  have h0 := hu.nonneg
  obtain ⟨sel, e1, e2, e3, -, e4⟩ := tailVariateMeans_of_rank H side hasNaN hk x0 v0 h hn h1 h2 hd
  obtain ⟨m, em, nm⟩ := near_tailMean hu H side hasNaN hk x0 v0 h hn hc h1 (by omega) hB
  rw [← hM] at nm
  have e4 := e4 m em
  have hn0 : (0 : K) < n := by exact_mod_cast h1
  have nd := (Near.nat (u := u) hc).mul hu nm
  rw [show 0 + (n + 1) + 1 = n + 2 by omega] at nd
  have hden := nd.2
  rw [← hδ] at hden
  have hMn : (n : K) * M ≠ 0 := mul_ne_zero hn0.ne' hM0
  have habs : |(n : K) * M| = n * |M| := by rw [abs_mul, abs_of_pos hn0]
  have hβ : 2 * (δ * (n * B)) ≤ |(n : K) * M| := by
    rw [habs]
    have := mul_le_mul_of_nonneg_left hsmall hn0.le
    linarith
  have hne : ((n : ℕ) : Fl R) * m ≠ 0 := by
    intro e
    refine (quot_err_ne (a := 0) (t := 0) (α := 0) hMn (by simp) hden hβ).1 ?_
    rw [e, Fl.val_zero]
  rw [vecDiv_map hne, List.map_map] at e4
  refine ⟨sel, _, e1, e3, e4, fun j hj r hr => ?_⟩
  have hC' : ∀ q ∈ sel, |(q.2.getD j 0).val| ≤ C := by
    intro q hq
    have hq' := e1.subset hq
    refine hC q hq' _ ?_
    rw [List.getD_eq_getElem?_getD, List.getElem?_eq_getElem (by rw [hd q hq']; exact hj), Option.getD_some]
    exact List.getElem_mem _
  obtain ⟨a, b⟩ := column_err hu sel j hC'
  rw [e2] at a b
  have hnC : 0 ≤ (n : K) * C := (abs_nonneg _).trans b
  have a' : |(sel.foldl (fun s q => s + q.2.getD j 0) (0 : Fl R)).val - (sel.map fun q => (q.2.getD j 0).val).sum|
      ≤ δ * (n * C) := by
    refine a.trans (mul_le_mul_of_nonneg_right ?_ hnC)
    rw [hδ]
    have := pow_le_pow_right₀ (show 1 ≤ 1 + u by linarith) (show n ≤ n + 2 by omega)
    linarith
  obtain ⟨-, hq⟩ := quot_err_ne hMn a' hden hβ
  have hr' : (sel.map fun q => (q.2.getD j 0).val).sum / (n * M) = r := by
    rw [hr, Spec.mean, List.length_map, e2, div_div]
  rw [hr', habs] at hq
  simp only [Function.comp_apply]
  rw [Fl.val_div]
  refine (near_div_arith hu hq).trans (le_of_eq ?_)
  congr 2
  have := abs_pos.2 hM0
  field_simp

/-- `vecInnerProduct`, in the order the code uses. -/
theorem vecInnerProduct_foldl {K : Type} [Arith K] {d n : ℕ} (ps : List (List K × K)) (f : ℕ → K)
    (hd : ∀ p ∈ ps, p.1.length = d) (hn : n ≤ ps.length) :
    vecInnerProduct ((List.range d).map f) n (ps.map Prod.fst) (ps.map Prod.snd)
      = .val ((List.range d).map fun j => (ps.take n).foldl (fun s p => s + p.1.getD j 0 * p.2) (f j)) := by
  induction ps generalizing f n with
  | nil =>
    have : n = 0 := by simpa using hn
    subst this
    simp [vecInnerProduct]
  | cons p ps ih =>
    cases n with
    | zero => simp [vecInnerProduct]
    | succ n =>
      simp only [List.map_cons, vecInnerProduct, List.take_succ_cons, List.foldl_cons]
      rw [vecAdd_map (by simpa using hd p (by simp)), Res.val_bind,
        ih _ (fun q hq => hd q (by simp [hq])) (by simpa using hn)]
      congr 1
      apply List.map_congr_left
      intro j hj
      have hj' : j < p.1.length := by rw [hd p (by simp)]; exact List.mem_range.1 hj
      have : (p.1.map (· * p.2)).getD j 0 = p.1.getD j 0 * p.2 := by
        simp [List.getD, hj']
      rw [this]

/-- **C98** Weighted tail variate means: if a vector is returned, each component is close to the weighted mean of that
component over some most extreme samples, which carry the wanted share of the weight up to `ε`.  A vector is returned if the
weights listed by `tail_weights(acc)` add up to the share plus `ε`. -/
theorem C98_weighted_variate (hu : R.RelErr u) (hu1 : u < 1) (H : HeapImpl ℕ) (side : Side) (hasNaN : Bool) {k d : ℕ}
    (hk : 1 ≤ k) (x0 : Fl R) (v0 : List (Fl R) × Fl R) (h : List (Op (Fl R × (List (Fl R) × Fl R)) Unit))
    (hd : ∀ q ∈ pushes h, q.2.1.length = d) (hw : ∀ q ∈ pushes h, 0 ≤ q.2.2) {p : K} (h0 : 0 ≤ p)
    (h1 : p ≤ 1) {W T ε : K} (hW : W = ((pushes h).map fun q => q.2.2.val).sum) (hT : T = Spec.tailWeight side W p)
    (hε : ε = 2 * ((1 + u) ^ ((pushes h).length + 3) - 1) * W) (hεT : ε < T) :
    (∀ w : List (Fl R), wtailVariateMeans H side false hasNaN k x0 v0 h (Fl.ofK R p) = .val w →
      ∃ sel : List (Fl R × (List (Fl R) × Fl R)), sel.Subperm (pushes h) ∧
        sel.map Prod.fst = Spec.extremes side sel.length ((pushes h).map Prod.fst) ∧
        T - ε ≤ (sel.map fun q => q.2.2.val).sum ∧ (∀ j < sel.length, ((sel.take j).map fun q => q.2.2.val).sum < T + ε) ∧
        w.length = d ∧
        ∀ j < d, |(w.getD j 0).val - Spec.wmean (sel.map fun q => ((q.2.1.getD j 0).val, q.2.2.val))|
          ≤ ((1 + u) ^ (sel.length + 2) / (1 - u) ^ sel.length - 1) *
            Spec.wmean (sel.map fun q => (|(q.2.1.getD j 0).val|, q.2.2.val))) ∧
    ((∀ v, extractTailVariate H side k x0 v0 h = .val v → T + ε ≤ (v.map fun v => v.2.val).sum) →
      ∃ w, wtailVariateMeans H side false hasNaN k x0 v0 h (Fl.ofK R p) = .val w) := by
  suffices key : (∃ w : List (Fl R), wtailVariateMeans H side false hasNaN k x0 v0 h (Fl.ofK R p) = .val w ∧
      ∃ sel : List (Fl R × (List (Fl R) × Fl R)), sel.Subperm (pushes h) ∧
        sel.map Prod.fst = Spec.extremes side sel.length ((pushes h).map Prod.fst) ∧
        T - ε ≤ (sel.map fun q => q.2.2.val).sum ∧ (∀ j < sel.length, ((sel.take j).map fun q => q.2.2.val).sum < T + ε) ∧
        w.length = d ∧
        ∀ j < d, |(w.getD j 0).val - Spec.wmean (sel.map fun q => ((q.2.1.getD j 0).val, q.2.2.val))|
          ≤ ((1 + u) ^ (sel.length + 2) / (1 - u) ^ sel.length - 1) *
            Spec.wmean (sel.map fun q => (|(q.2.1.getD j 0).val|, q.2.2.val))) ∨
      ((∀ w, wtailVariateMeans H side false hasNaN k x0 v0 h (Fl.ofK R p) ≠ .val w) ∧
        ∃ v, extractTailVariate H side k x0 v0 h = .val v ∧ (v.map fun v => v.2.val).sum < T + ε) by
    rcases key with ⟨w, hw, hs⟩ | ⟨hno, v, hv, hlt⟩
    · refine ⟨fun w' hw' => ?_, fun _ => ⟨w, hw⟩⟩
      obtain rfl : w = w' := Res.val.inj (hw.symm.trans hw')
      exact hs
    · exact ⟨fun w hw => absurd hw (hno w), fun hc => absurd (hc v hv) (not_le.2 hlt)⟩
  have hu0 := hu.nonneg
  obtain ⟨out, D, ht, hv', hp, hex, -, hq⟩ := wtailVariate_out H side hk x0 v0 h
  rw [hq]
  have hwo : ∀ q ∈ out, 0 ≤ q.2.2 := fun q hq => hw q (hp.mem_iff.1 (List.mem_append_left _ hq))
  have hdo : ∀ q ∈ out, q.2.1.length = d := fun q hq => hd q (hp.mem_iff.1 (List.mem_append_left _ hq))
  have hthr := threshold_err hu side ((pushes h).map fun q => q.2.2) (by
    intro w hw'
    obtain ⟨q, hq', rfl⟩ := List.mem_map.1 hw'
    exact hw q hq') h0 h1
  have hWs : (((pushes h).map fun q => q.2.2).map Fl.val).sum = W := by
    rw [hW, List.map_map]; rfl
  have hTs : W * tailLevel side p = T := by
    rw [hT]; cases side <;> rfl
  rw [hWs, List.length_map, hTs] at hthr
  have hol : out.length ≤ (pushes h).length := by
    rw [← hp.length_eq, List.length_append]; omega
  have hWle : ((out.map fun q => q.2.2).map Fl.val).sum ≤ W := by
    have hpm := (hp.map fun q : Fl R × (List (Fl R) × Fl R) => q.2.2.val).sum_eq
    rw [List.map_append, List.sum_append] at hpm
    have : 0 ≤ (D.map fun q => q.2.2.val).sum := List.sum_nonneg fun x hx => by
      obtain ⟨q, hq, rfl⟩ := List.mem_map.1 hx
      exact hw q (hp.mem_iff.1 (List.mem_append_right _ hq))
    rw [hW, ← hpm, List.map_map]
    simpa [Function.comp_def] using this
  have hpre : ∀ n, |(((out.map fun q => q.2.2).take n).foldl (· + ·) (0 : Fl R)).val
      - ((out.take n).map fun q => q.2.2.val).sum| ≤ ((1 + u) ^ ((pushes h).length + 3) - 1) * W := by
    intro n
    have := prefix_err hu (out.map fun q => q.2.2) (by
      intro w hw'
      obtain ⟨q, hq', rfl⟩ := List.mem_map.1 hw'
      exact hwo q hq') n (N := (pushes h).length + 3) (by rw [List.length_map]; omega)
    have e1 : (((out.map fun q => q.2.2).map Fl.val).take n).sum = ((out.take n).map fun q => q.2.2.val).sum := by
      simp only [List.map_map, ← List.map_take]; rfl
    rw [e1] at this
    refine this.trans (mul_le_mul_of_nonneg_left hWle ?_)
    have : 1 ≤ (1 + u) ^ ((pushes h).length + 3) := one_le_pow₀ (by linarith)
    linarith
  have ht' := abs_le.1 hthr
  have hε' : ε = 2 * (((1 + u) ^ ((pushes h).length + 3) - 1) * W) := by rw [hε]; ring
  unfold wtailVariateMeansResult wtailVariateMeansOf
  rcases wtailLoop_cases (if hasNaN then .diverges else .thrown)
      (wtailThreshold side ((pushes h).map fun q => q.2.2) (Fl.ofK R p)) 0 0
      (out.map fun q => q.2.2) with ⟨n, hn, hlt, hge, he⟩ | ⟨hall, he⟩
  · rw [List.length_map] at hn
    left
    rw [he, Res.val_bind]
    simp only [Nat.zero_add, Bool.false_eq_true, if_false]
    have hl : (out.take n).length = n := by rw [List.length_take]; omega
    have hlow : T - ε ≤ ((out.take n).map fun q => q.2.2.val).sum := by
      have h1 := (abs_le.1 (hpre n)).2
      have h2 := Fl.le_iff.1 hge
      linarith [ht'.1]
    have hsum : ((out.map fun q => q.2.2).take n).foldl (· + ·) (0 : Fl R)
        = (out.take n).foldl (fun s q => s + q.2.2) 0 := by
      rw [← List.map_take, List.foldl_map]
    rw [hsum]
    have hcons : ∃ v vs, (out.map fun q => q.2.1) = v :: vs ∧ v.length = d := by
      cases hout : out with
      | nil =>
        rw [hout] at hlow
        simp at hlow
        linarith
      | cons q qs => exact ⟨q.2.1, qs.map fun q => q.2.1, rfl, hdo q (by rw [hout]; simp)⟩
    obtain ⟨v, vs, hcs, hvd⟩ := hcons
    have hip := vecInnerProduct_foldl (n := n) (out.map Prod.snd) (fun _ => (0 : Fl R)) (d := d) (by
      intro q hq
      obtain ⟨q', hq', rfl⟩ := List.mem_map.1 hq
      exact hdo q' hq') (by simpa using hn)
    rw [List.map_map, List.map_map, ← List.map_take] at hip
    have hip' : vecInnerProduct (List.replicate v.length (0 : Fl R)) n (out.map fun q => q.2.1) (out.map fun q => q.2.2)
        = .val ((List.range d).map fun j => (out.take n).foldl (fun s q => s + q.2.1.getD j 0 * q.2.2) 0) := by
      rw [hvd, ← List.length_range (n := d), ← List.map_const', List.length_range]
      refine hip.trans ?_
      simp only [List.foldl_map]
    rw [hcs]
    simp only []
    rw [← hcs, hip', Res.val_bind]
    have hposW : 0 < ((out.take n).map fun q => q.2.2.val).sum := by linarith
    have hcol : ∀ j, ∃ m : Fl R, fdiv ((out.take n).foldl (fun s q => s + q.2.1.getD j 0 * q.2.2) 0)
        ((out.take n).foldl (fun s q => s + q.2.2) 0) = .val m ∧
        |m.val - Spec.wmean ((out.take n).map fun q => ((q.2.1.getD j 0).val, q.2.2.val))|
        ≤ ((1 + u) ^ ((out.take n).length + 2) / (1 - u) ^ (out.take n).length - 1) *
          Spec.wmean ((out.take n).map fun q => (|(q.2.1.getD j 0).val|, q.2.2.val)) := by
      intro j
      obtain ⟨m, em, hm⟩ := wmean_quot_err hu hu1 ((out.take n).map fun q => (q.2.1.getD j 0, q.2.2)) (by
        intro q hq
        obtain ⟨q', hq', rfl⟩ := List.mem_map.1 hq
        exact hwo q' (List.mem_of_mem_take hq')) (by rw [List.map_map]; exact hposW)
      rw [List.foldl_map, List.foldl_map] at em
      refine ⟨m, em, ?_⟩
      have a1 : Spec.wmean ((out.take n).map fun q => ((q.2.1.getD j 0).val, q.2.2.val))
          = (((out.take n).map fun q => (q.2.1.getD j 0, q.2.2)).map fun p => p.1.val * p.2.val).sum /
            (((out.take n).map fun q => (q.2.1.getD j 0, q.2.2)).map fun p => p.2.val).sum := by
        simp only [Spec.wmean, Spec.wtotal, List.map_map, Function.comp_def, mul_comm]
      have a2 : Spec.wmean ((out.take n).map fun q => (|(q.2.1.getD j 0).val|, q.2.2.val))
          = (((out.take n).map fun q => (q.2.1.getD j 0, q.2.2)).map fun p => |p.1.val * p.2.val|).sum /
            (((out.take n).map fun q => (q.2.1.getD j 0, q.2.2)).map fun p => p.2.val).sum := by
        simp only [Spec.wmean, Spec.wtotal, List.map_map, Function.comp_def]
        congr 2
        refine List.map_congr_left fun q hq => ?_
        rw [abs_mul, abs_of_nonneg (show 0 ≤ q.2.2.val from hwo q (List.mem_of_mem_take hq)), mul_comm]
      rw [a1, a2]
      simpa using hm
    have hne : (out.take n).foldl (fun s q => s + q.2.2) (0 : Fl R) ≠ 0 := by
      obtain ⟨m, em, -⟩ := hcol 0
      intro e
      rw [e] at em
      simp [fdiv] at em
    rw [vecDiv_map hne, List.map_map]
    refine ⟨_, rfl, out.take n, ((List.take_sublist n out).trans (List.sublist_append_left out D)).subperm.trans hp.subperm, ?_, hlow,
      ?_, by simp, ?_⟩
    · rw [hl, List.map_take, hex]
      have hlen := congrArg List.length hex
      rw [extremes_length, List.length_map, List.length_map] at hlen
      exact extremes_take side (by omega) _
    · intro j hj
      rw [hl] at hj
      have h1 := (abs_le.1 (hpre j)).1
      have h2 := Fl.lt_iff.1 (hlt j hj)
      rw [List.take_take, Nat.min_eq_left hj.le]
      linarith [ht'.2]
    · intro j hj
      obtain ⟨m, em, hm⟩ := hcol j
      have : ((List.range d).map ((fun x => x / (out.take n).foldl (fun s q => s + q.2.2) (0 : Fl R)) ∘ fun j =>
          (out.take n).foldl (fun s q => s + q.2.1.getD j 0 * q.2.2) 0)).getD j 0 = m := by
        rw [List.getD_eq_getElem?_getD, List.getElem?_map, List.getElem?_range hj]
        simp only [Option.map_some, Option.getD_some, Function.comp_apply]
        simp only [fdiv, if_neg hne] at em
        exact Res.val.inj em
      rw [this]
      exact hm
  · right
    rw [he]
    refine ⟨fun w hw => by cases hasNaN <;> simp at hw, _, hv', ?_⟩
    have h2 := Fl.lt_iff.1 (hall _ le_rfl)
    have h3 := (abs_le.1 (hpre (out.map fun q => q.2.2).length)).1
    rw [List.take_of_length_le (l := out) (by simp)] at h3
    rw [List.map_map]
    have h4 : (out.map ((fun v : List (Fl R) × Fl R => v.2.val) ∘ Prod.snd)).sum = (out.map fun q => q.2.2.val).sum := rfl
    rw [h4]
    linarith [ht'.2]

end rank

/-! ### Concrete cases -/

/-- Samples 1, 2, 9 with weights 0.1, 0.3, 0.1. -/
def unevenWeights : List (Op (Fl double × Fl double) Unit) :=
  [(1, 1), (2, 3), (9, 1)].map fun q : ℕ × ℕ => Op.push (((q.1 : ℕ) : Fl double), Fl.ofK double ((q.2 : ℚ) / 10))

/-- **C98** The set of averaged samples is not always the exact one: of these weights, the doubles nearest to 0.1, 0.3 and
0.1, the first two add up to a little less than 80% in exact arithmetic, but to 80% as computed.  The lower tail mean is 1.75
as computed, and more than 3 if the same numbers are handled exactly. -/
theorem C98_selection_differs :
    (∃ m : Fl double, wtailMean HeapImpl.simple .left true id 3 0 0 unevenWeights (Fl.ofK double (4 / 5)) = .val m ∧
      |m.val - 7 / 4| ≤ 1 / 10 ^ 15) ∧
    ∃ m : ℚ, wtailMean HeapImpl.simple .left true id 3 0 0
      (unevenWeights.map fun o => match o with | .push q => Op.push (q.1.val, q.2.val) | .query q => .query q) (4 / 5) = .val m ∧
      3 < m := by
  refine ⟨⟨Fl.ofK double (7881299347898367/4503599627370496), ?_, ?_⟩, ⟨28823037615171175 / 9007199254740992, ?_, ?_⟩⟩ <;> decide +kernel

example : ∃ sel : List (ℚ × Fl double), ∃ m : Fl double,
    wtailMean HeapImpl.simple .left true id 3 0 0 unevenWeights (Fl.ofK double (4 / 5)) = .val m ∧
      |m.val - Spec.wmean (sel.map fun q => (q.1, q.2.val))| ≤
        ((1 + 1 / 2 ^ 53) ^ (sel.length + 2) / (1 - 1 / 2 ^ 53) ^ sel.length - 1) *
          Spec.wmean (sel.map fun q => (|q.1|, q.2.val)) := by
  obtain ⟨m, hm, -⟩ := C98_selection_differs.1
  obtain ⟨sel, -, -, -, -, h⟩ := (C98_weighted_mean double_relErr (by norm_num) HeapImpl.simple .left true (wt := id)
    (by norm_num) 0 0 unevenWeights (by decide +kernel) (by norm_num) (by norm_num) rfl rfl rfl).1 m hm
  exact ⟨sel, m, hm, h⟩

/-- It returns a value for half the weight: the bound `ε` is about `10⁻¹⁵`. -/
example : ∃ m, wtailMean HeapImpl.simple .left true id 3 0 0 unevenWeights (Fl.ofK double (1 / 2)) = .val m := by
  refine (C98_weighted_mean double_relErr (by norm_num) HeapImpl.simple .left true (wt := id)
    (by norm_num) 0 0 unevenWeights (by decide +kernel) (by norm_num) (by norm_num) rfl rfl rfl).2 (by decide +kernel) ?_
  intro v hv
  have e : extractTailVariate HeapImpl.simple .left 3 0 0 unevenWeights
      = .val [Fl.ofK double (1 / 10), Fl.ofK double (3 / 10), Fl.ofK double (1 / 10)] := by decide +kernel
  rw [e] at hv
  rw [← Res.val.inj hv]
  decide +kernel

example : ∃ m q : Fl double, coherentTailMean HeapImpl.simple .right true 6 0 () tenSamples (Fl.ofK double (7 / 10)) = .val m ∧
    (Spec.byExtremity .right ((pushes tenSamples).map Prod.fst))[4 - 1]? = some q ∧
    |m.val - (Spec.mean ((Spec.extremes .right 4 ((pushes tenSamples).map Prod.fst)).map Fl.val) +
      q.val / (4 : ℕ) * (1 - 7 / 10 - ((4 : ℕ) : ℚ) / (pushes tenSamples).length))|
      ≤ ((1 + 1 / 2 ^ 53) ^ (4 + 6) - 1) * (10 + 2 * 10 / (4 : ℕ)) :=
  C98_coherent double_relErr HeapImpl.simple .right true (by norm_num) 0 () tenSamples (by norm_num) (by norm_num)
    (by decide +kernel) (double_counts (n := 4) (by norm_num) _ le_rfl) (double_counts (n := 10) (by norm_num) _ le_rfl)
    (by norm_num) (by norm_num [tenSamples, pushes]) (by decide +kernel)

/-- Samples 0, ..., 4 with the variates (i, 1/(i+1)). -/
def withVariates : List (Op (Fl double × List (Fl double)) Unit) :=
  [0, 1, 2, 3, 4].map fun i : ℕ => Op.push (((i : ℕ) : Fl double), [((i : ℕ) : Fl double), Fl.ofK double (1 / (i + 1))])

example : ∃ (sel : List (Fl double × List (Fl double))) (w : ℕ → Fl double), sel.Subperm (pushes withVariates) ∧
    sel.map Prod.fst = Spec.extremes .right 2 ((pushes withVariates).map Prod.fst) ∧
    tailVariateMeans HeapImpl.simple .right false true 4 0 [] withVariates (Fl.ofK double (3 / 5)) = .val ((List.range 2).map w) ∧
    ∀ j < 2, |(w j).val - Spec.mean (sel.map fun q => (q.2.getD j 0).val)| ≤ ((1 + 1 / 2 ^ 53) ^ (2 + 1) - 1) * 4 :=
  C98_variate double_relErr HeapImpl.simple .right true (by norm_num) 0 [] withVariates (by decide +kernel)
    (double_counts (n := 2) (by norm_num) _ le_rfl) (by norm_num) (by norm_num [withVariates, pushes]) (by decide +kernel)
    (by decide +kernel)

example : ∃ (sel : List (Fl double × List (Fl double))) (w : ℕ → Fl double), sel.Subperm (pushes withVariates) ∧
    sel.map Prod.fst = Spec.extremes .right 2 ((pushes withVariates).map Prod.fst) ∧
    tailVariateMeans HeapImpl.simple .right true true 4 0 [] withVariates (Fl.ofK double (3 / 5)) = .val ((List.range 2).map w) ∧
    ∀ j < 2, ∀ r, r = Spec.mean (sel.map fun q => (q.2.getD j 0).val) / (7 / 2) → |(w j).val - r| ≤
      (1 + 1 / 2 ^ 53) * (2 * ((1 + 1 / 2 ^ 53) ^ (2 + 2) - 1) * (4 + |r| * 4) / |7 / 2|) + 1 / 2 ^ 53 * |r| :=
  C98_variate_relative double_relErr HeapImpl.simple .right true (by norm_num) 0 [] withVariates (by decide +kernel)
    (double_counts (n := 2) (by norm_num) _ le_rfl) (by norm_num) (by norm_num [withVariates, pushes]) (by decide +kernel)
    (B := 4) (C := 4) (by decide +kernel) (by decide +kernel) (M := 7 / 2) (by decide +kernel) (by norm_num) rfl (by decide +kernel)

/-- Samples 1, 2, 9 with variates and the weights 0.1, 0.3, 0.1. -/
def weightedVariates : List (Op (Fl double × (List (Fl double) × Fl double)) Unit) :=
  [(1, 1), (2, 3), (9, 1)].map fun q : ℕ × ℕ =>
    Op.push (((q.1 : ℕ) : Fl double), [Fl.ofK double (1 / q.1)], Fl.ofK double ((q.2 : ℚ) / 10))

example : ∃ w, wtailVariateMeans HeapImpl.simple .left false true 3 0 ([], 0) weightedVariates (Fl.ofK double (1 / 2)) = .val w := by
  refine (C98_weighted_variate double_relErr (by norm_num) HeapImpl.simple .left true (d := 1)
    (by norm_num) 0 ([], 0) weightedVariates (by decide +kernel) (by decide +kernel) (by norm_num) (by norm_num) rfl rfl rfl
    (by decide +kernel)).2 ?_
  intro v hv
  have e : extractTailVariate HeapImpl.simple .left 3 0 ([], 0) weightedVariates
      = .val [([Fl.ofK double 1], Fl.ofK double (1 / 10)), ([Fl.ofK double (1 / 2)], Fl.ofK double (3 / 10)),
        ([Fl.ofK double (1 / 9)], Fl.ofK double (1 / 10))] := by decide +kernel
  rw [e] at hv
  rw [← Res.val.inj hv]
  decide +kernel

end Acc
