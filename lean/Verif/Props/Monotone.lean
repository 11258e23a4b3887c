import Verif.Props.Consistent
import Verif.Props.WTail
import Verif.Props.PSquareInterp
import Verif.Props.WPSquare

/-!
# Quantile estimates as functions of the probability (C74)

A quantile function is non-decreasing.  Which estimators behave like one, when the same stream is asked for two
probabilities?
-/

set_option linter.unusedSectionVars false

namespace Acc

variable {K : Type} [Field K] [LinearOrder K] [IsStrictOrderedRing K] {V : Type}

/-! ## Tail quantiles -/

section tail
variable [FloorRing K]

theorem byExtremity_right {α : Type} [LinearOrder α] (xs : List α) :
    Spec.byExtremity .right xs = (Spec.byExtremity .left xs).reverse := by
  symm
  apply byExtremity_unique
  · exact (List.reverse_perm _).trans (byExtremity_perm _ _)
  · exact List.pairwise_reverse.2 (byExtremity_sorted .left xs)

/-- The rank, counted from the smallest sample (which has rank 1), of the quantile `p` of `N` samples: the least
integer not below `N·p` seen from the left, the least integer above `N·p` seen from the right. -/
def Spec.rank (side : Side) (N : ℕ) (p : K) : ℤ :=
  match side with
  | .left => ⌈(N : K) * p⌉
  | .right => ⌊(N : K) * p⌋ + 1

/-- **C74** Whenever a tail quantile is a number, it is the sample of rank `Spec.rank` of the whole stream: the two
tails agree up to one rank. -/
theorem C74_tail_rank (H : HeapImpl ℕ) (side : Side) (hasNaN : Bool) {k : ℕ} (hk : 1 ≤ k) (x0 : K) (v0 : V)
    (h : List (Op (K × V) Unit)) {p x : K} (h0 : 0 ≤ p) (h1 : p ≤ 1)
    (e : tailQuantile H side hasNaN k x0 v0 h p = .val x) :
    ∃ i : ℕ, (i : ℤ) + 1 = Spec.rank side (pushes h).length p ∧
      (((pushes h).map Prod.fst).insertionSort (· ≤ ·))[i]? = some x := by
  obtain ⟨n, hn⟩ := tailCount_nonneg (side := side) (cnt := (pushes h).length) h0 h1
  have hN : n < min k (pushes h).length := by
    by_contra hc
    rw [C18_too_few H side hasNaN x0 v0 h hk hn (by omega)] at e
    cases hasNaN <;> simp at e
  have hn1 : 1 ≤ n := by
    by_contra hc
    have hz : n = 0 := by omega
    subst hz
    rw [C18_zero_ub H side hasNaN x0 v0 h hk (by simpa using hn) (by rintro hp; simp [hp] at hN)] at e
    simp at e
  obtain ⟨y, ey, hy⟩ := C18_quantile H side hasNaN x0 v0 h hk hn hn1 hN
  rw [e, Res.val.injEq] at ey
  subst ey
  have hsort : ((pushes h).map Prod.fst).insertionSort (· ≤ ·)
      = Spec.byExtremity .left ((pushes h).map Prod.fst) := rfl
  rw [hsort]
  cases side with
  | left =>
    refine ⟨n - 1, ?_, hy⟩
    simp only [Spec.tailCount] at hn
    simp only [Spec.rank, hn]
    omega
  | right =>
    have hl : (Spec.byExtremity .left ((pushes h).map Prod.fst)).length = (pushes h).length := by
      rw [(byExtremity_perm _ _).length_eq, List.length_map]
    rw [byExtremity_right, List.getElem?_reverse (by rw [hl]; omega), hl] at hy
    refine ⟨_, ?_, hy⟩
    simp only [Spec.tailCount] at hn
    simp only [Spec.rank]
    have : ⌈((pushes h).length : K) * (1 - p)⌉ = (pushes h).length - ⌊((pushes h).length : K) * p⌋ := by
      rw [mul_sub, mul_one, sub_eq_add_neg, add_comm, Int.ceil_add_natCast, Int.ceil_neg]
      ring
    rw [this] at hn
    omega

theorem rank_mono {side side' : Side} {N : ℕ} (hN : 0 < N) {p p' : K}
    (hp : p < p' ∨ p = p' ∧ (side = .left ∨ side' = .right)) : Spec.rank side N p ≤ Spec.rank side' N p' := by
  have hN' : (0 : K) < N := by exact_mod_cast hN
  have hle : (N : K) * p ≤ N * p' := by
    rcases hp with h | ⟨rfl, -⟩
    · exact mul_le_mul_of_nonneg_left h.le hN'.le
    · exact le_refl _
  cases side <;> cases side' <;> simp only [Spec.rank]
  · exact Int.ceil_le_ceil hle
  · refine Int.ceil_le.2 ?_
    push_cast
    exact hle.trans (Int.lt_floor_add_one _).le
  · have hlt : (N : K) * p < N * p' := by
      rcases hp with h | ⟨-, h | h⟩
      · exact mul_lt_mul_of_pos_left h hN'
      · exact absurd h (by decide)
      · exact absurd h (by decide)
    have : ⌊(N : K) * p⌋ < ⌈(N : K) * p'⌉ := by
      rw [Int.lt_ceil]
      exact (Int.floor_le _).trans_lt hlt
    omega
  · have := Int.floor_le_floor hle
    omega

/-- **C74** Tail quantiles are non-decreasing in the probability.  The two requests may even go to different
accumulators (another side, another cache size, another heap, other extractions in between), as long as the samples
were the same; at the same probability the left tail answers at most what the right tail answers. -/
theorem C74_tail_quantile (H H' : HeapImpl ℕ) (side side' : Side) (hasNaN hasNaN' : Bool) {k k' : ℕ} (hk : 1 ≤ k)
    (hk' : 1 ≤ k') (x0 x0' : K) (v0 v0' : V) {h h' : List (Op (K × V) Unit)} (hh : pushes h = pushes h')
    {p p' x x' : K} (h0 : 0 ≤ p) (h1 : p' ≤ 1)
    (hp : p < p' ∨ p = p' ∧ (side = .left ∨ side' = .right))
    (e : tailQuantile H side hasNaN k x0 v0 h p = .val x)
    (e' : tailQuantile H' side' hasNaN' k' x0' v0' h' p' = .val x') : x ≤ x' := by
  have hpp : p ≤ p' := by rcases hp with h | ⟨rfl, -⟩; exacts [h.le, le_refl _]
  obtain ⟨i, hi, ei⟩ := C74_tail_rank H side hasNaN hk x0 v0 h h0 (hpp.trans h1) e
  obtain ⟨j, hj, ej⟩ := C74_tail_rank H' side' hasNaN' hk' x0' v0' h' (h0.trans hpp) h1 e'
  rw [hh] at hi ei
  obtain ⟨li, xi⟩ := List.getElem?_eq_some_iff.1 ei
  obtain ⟨lj, xj⟩ := List.getElem?_eq_some_iff.1 ej
  have hN : 0 < (pushes h').length := by
    rw [List.length_insertionSort, List.length_map] at li
    omega
  have hij : i ≤ j := by
    have := rank_mono hN hp
    omega
  rw [← xi, ← xj]
  rcases Nat.lt_or_ge i j with hlt | hge
  · exact List.pairwise_iff_getElem.mp (List.pairwise_insertionSort (r := (· ≤ ·)) _) i j li lj hlt
  · have : i = j := by omega
    subst this
    exact le_refl _

/-- **C74** When `count · p` is not an integer the two tails answer the same sample. -/
theorem C74_tail_sides (H H' : HeapImpl ℕ) (hasNaN hasNaN' : Bool) {k k' : ℕ} (hk : 1 ≤ k)
    (hk' : 1 ≤ k') (x0 x0' : K) (v0 v0' : V) {h h' : List (Op (K × V) Unit)} (hh : pushes h = pushes h')
    {p x x' : K} (h0 : 0 ≤ p) (h1 : p ≤ 1) (hp : ∀ n : ℤ, ((pushes h).length : K) * p ≠ n)
    (e : tailQuantile H .left hasNaN k x0 v0 h p = .val x)
    (e' : tailQuantile H' .right hasNaN' k' x0' v0' h' p = .val x') : x = x' := by
  obtain ⟨i, hi, ei⟩ := C74_tail_rank H .left hasNaN hk x0 v0 h h0 h1 e
  obtain ⟨j, hj, ej⟩ := C74_tail_rank H' .right hasNaN' hk' x0' v0' h' h0 h1 e'
  rw [← hh] at hj ej
  have : Spec.rank .left (pushes h).length p = Spec.rank .right (pushes h).length p := by
    apply le_antisymm (rank_mono ?_ (Or.inr ⟨rfl, Or.inl rfl⟩))
    · simp only [Spec.rank]
      have : ⌊((pushes h).length : K) * p⌋ < ⌈((pushes h).length : K) * p⌉ := by
        rw [Int.lt_ceil]
        exact lt_of_le_of_ne (Int.floor_le _) (hp _).symm
      omega
    · obtain ⟨li, -⟩ := List.getElem?_eq_some_iff.1 ei
      rw [List.length_insertionSort, List.length_map] at li
      omega
  have hij : i = j := by omega
  subst hij
  rw [ei] at ej
  exact Option.some.inj ej

theorem extremes_extremes {α : Type} [LinearOrder α] (side : Side) {n m : ℕ} (hnm : n ≤ m) (xs : List α) :
    Spec.extremes side n (Spec.extremes side m xs) = Spec.extremes side n xs := by
  have : Spec.byExtremity side (Spec.extremes side m xs) = Spec.extremes side m xs := by
    symm
    apply byExtremity_unique (List.Perm.refl _)
    exact (byExtremity_sorted side xs).sublist (List.take_sublist _ _)
  conv_lhs => rw [Spec.extremes, this]
  exact extremes_take side hnm xs

theorem tailCount_mono {N n n' : ℕ} {p p' : K} (hpp : p ≤ p') :
    (Spec.tailCount .left N p = n → Spec.tailCount .left N p' = n' → n ≤ n') ∧
    (Spec.tailCount .right N p = n → Spec.tailCount .right N p' = n' → n' ≤ n) := by
  have hN' : (0 : K) ≤ N := Nat.cast_nonneg _
  simp only [Spec.tailCount]
  constructor <;> intro h h'
  · have := Int.ceil_le_ceil (mul_le_mul_of_nonneg_left hpp hN')
    omega
  · have := Int.ceil_le_ceil (mul_le_mul_of_nonneg_left (sub_le_sub_left hpp 1) hN')
    omega

theorem tailMean_val {H : HeapImpl ℕ} {side : Side} {hasNaN : Bool} {k : ℕ} (hk : 1 ≤ k) {x0 : K} {v0 : V}
    {h : List (Op (K × V) Unit)} {p x : K} (h0 : 0 ≤ p) (h1 : p ≤ 1)
    (e : nonCoherentTailMean H side hasNaN k x0 v0 h p = .val x) :
    ∃ n, Spec.tailCount side (pushes h).length p = (n : ℕ) ∧ 1 ≤ n ∧ n ≤ (pushes h).length ∧
      x = Spec.mean (Spec.extremes side n ((pushes h).map Prod.fst)) := by
  obtain ⟨n, hn⟩ := tailCount_nonneg (side := side) (cnt := (pushes h).length) h0 h1
  have hN : n ≤ min k (pushes h).length := by
    by_contra hc
    rw [C19_too_few H side hasNaN x0 v0 h hk hn (by omega)] at e
    cases hasNaN <;> simp at e
  have hn1 : 1 ≤ n := by
    by_contra hc
    have hz : n = 0 := by omega
    subst hz
    rw [C19_zero H side hasNaN x0 v0 h hk (by simpa using hn)] at e
    simp at e
  rw [C19_mean H side hasNaN x0 v0 h hk hn hn1 hN, Res.val.injEq] at e
  exact ⟨n, hn, hn1, by omega, e.symm⟩

/-- **C74** Non-coherent tail means are non-decreasing in the probability, on either side. -/
theorem C74_tail_mean (H H' : HeapImpl ℕ) (side : Side) (hasNaN hasNaN' : Bool) {k k' : ℕ} (hk : 1 ≤ k)
    (hk' : 1 ≤ k') (x0 x0' : K) (v0 v0' : V) {h h' : List (Op (K × V) Unit)} (hh : pushes h = pushes h')
    {p p' x x' : K} (h0 : 0 ≤ p) (hpp : p ≤ p') (h1 : p' ≤ 1)
    (e : nonCoherentTailMean H side hasNaN k x0 v0 h p = .val x)
    (e' : nonCoherentTailMean H' side hasNaN' k' x0' v0' h' p' = .val x') : x ≤ x' := by
  obtain ⟨n, hn, n1, nN, rfl⟩ := tailMean_val hk h0 (hpp.trans h1) e
  obtain ⟨n', hn', n1', nN', rfl⟩ := tailMean_val hk' (h0.trans hpp) h1 e'
  rw [hh] at hn nN ⊢
  have key : ∀ {a b : ℕ}, 1 ≤ a → a ≤ b → b ≤ (pushes h').length →
      Spec.geExt side (Spec.mean (Spec.extremes side a ((pushes h').map Prod.fst)))
        (Spec.mean (Spec.extremes side b ((pushes h').map Prod.fst))) := by
    intro a b h1 h2 h3
    have hne : Spec.extremes side b ((pushes h').map Prod.fst) ≠ [] := by
      intro hz
      have := extremes_length side b ((pushes h').map Prod.fst)
      rw [hz, List.length_map, List.length_nil] at this
      omega
    have := mean_extremes side (n := a) h1 hne
    rwa [extremes_extremes side h2] at this
  cases side with
  | left => exact key n1 ((tailCount_mono hpp).1 hn hn') nN'
  | right => exact key n1' ((tailCount_mono hpp).2 hn hn') nN

/-- **C74 fails** for coherent tail means, even on the right tail where the documented formula is computed: four
samples 1, 2, 4, 8, all cached; the tail mean at 0.3 exceeds the one at 0.45. -/
theorem C74_coherent_fails :
    let h : List (Op (ℚ × Unit) Unit) := [.push (1, ()), .push (2, ()), .push (4, ()), .push (8, ())]
    ∃ x x', coherentTailMean HeapImpl.simple .right true 10 0 () h (30 / 100) = .val x ∧
      coherentTailMean HeapImpl.simple .right true 10 0 () h (45 / 100) = .val x' ∧ x' < x := by
  exact ⟨139 / 30, 136 / 30, by decide +kernel, by decide +kernel, by norm_num⟩

/-- **C54 fails** for coherent tail means, right tail: the correction term is proportional to the quantile, so
adding 100 to every sample does not add 100 to the result. -/
theorem C54_coherent_fails :
    let h : List (Op (ℚ × Unit) Unit) := [.push (1, ()), .push (2, ()), .push (4, ()), .push (8, ())]
    let h' : List (Op (ℚ × Unit) Unit) := [.push (101, ()), .push (102, ()), .push (104, ()), .push (108, ())]
    ∃ x x', coherentTailMean HeapImpl.simple .right true 10 0 () h (30 / 100) = .val x ∧
      coherentTailMean HeapImpl.simple .right true 10 0 () h' (30 / 100) = .val x' ∧ x' ≠ x + 100 := by
  exact ⟨139 / 30, 3089 / 30, by decide +kernel, by decide +kernel, by norm_num⟩

end tail

/-! ## Weighted tail quantiles -/

section wtail

theorem totalWeight_filter_add (wt : V → K) (ps : List (K × V)) (P Q : K × V → Bool)
    (h : ∀ q ∈ ps, Q q = !P q) :
    Spec.totalWeight wt (ps.filter P) + Spec.totalWeight wt (ps.filter Q) = Spec.totalWeight wt ps := by
  induction ps with
  | nil => simp [Spec.totalWeight]
  | cons a l ih =>
    have h1 := h a (by simp)
    have h2 := ih fun q hq => h q (by simp [hq])
    cases hP : P a <;> rw [hP] at h1 <;> simp only [Bool.not_true, Bool.not_false] at h1 <;>
      simp only [List.filter_cons, hP, h1, if_true, Bool.false_eq_true, if_false, Spec.totalWeight, List.map_cons,
        List.sum_cons] at * <;> linarith

theorem weight_complement (wt : V → K) (ps : List (K × V)) (x : K) :
    Spec.weightBeyond .right wt ps x + Spec.weightStrictlyBeyond .left wt ps x = Spec.totalWeight wt ps ∧
    Spec.weightStrictlyBeyond .right wt ps x + Spec.weightBeyond .left wt ps x = Spec.totalWeight wt ps := by
  constructor
  · apply totalWeight_filter_add
    intro q _
    rw [Bool.eq_iff_iff]
    rw [Bool.not_eq_true', decide_eq_false_iff_not, decide_eq_true_eq]
    exact not_le.symm
  · apply totalWeight_filter_add
    intro q _
    rw [Bool.eq_iff_iff]
    rw [Bool.not_eq_true', decide_eq_false_iff_not, decide_eq_true_eq]
    exact not_lt.symm

/-- **C74** Whenever a weighted tail quantile is a number, the weight of the smaller samples is at most `W·p` and
the weight of the samples not larger is at least `W·p`; the first is strict seen from the left, the second seen from
the right. -/
theorem C74_wtail_rank (H : HeapImpl ℕ) (side : Side) (hasNaN : Bool) (wt : V → K) {k : ℕ} (hk : 1 ≤ k) (x0 : K)
    (v0 : V) (h : List (Op (K × V) Unit)) (hw : ∀ q ∈ pushes h, 0 ≤ wt q.2) {p x : K}
    (e : wtailQuantile H side hasNaN wt k x0 v0 h p = .val x) :
    x ∈ (pushes h).map Prod.fst ∧
    match side with
    | .left => Spec.weightStrictlyBeyond .left wt (pushes h) x < Spec.totalWeight wt (pushes h) * p ∧
        Spec.totalWeight wt (pushes h) * p ≤ Spec.weightBeyond .left wt (pushes h) x
    | .right => Spec.weightStrictlyBeyond .left wt (pushes h) x ≤ Spec.totalWeight wt (pushes h) * p ∧
        Spec.totalWeight wt (pushes h) * p < Spec.weightBeyond .left wt (pushes h) x := by
  obtain ⟨out, D, -, hv, -⟩ := wtail_out H side hk x0 v0 h
  have hT : 0 < Spec.tailWeight side (Spec.totalWeight wt (pushes h)) p := by
    by_contra hc
    rw [(C37_zero_ub H side hasNaN x0 v0 h hk (not_lt.1 hc)).1] at e
    simp at e
  have hc : Spec.tailWeight side (Spec.totalWeight wt (pushes h)) p ≤ ((out.map Prod.snd).map wt).sum := by
    by_contra hc
    rw [(C37_insufficient H side hasNaN x0 v0 h hk hw hv (not_le.1 hc)).1] at e
    cases hasNaN <;> simp at e
  obtain ⟨y, hy, ey, y1, y2⟩ := C37_quantile H side hasNaN x0 v0 h hk hw hT hv hc
  rw [e, Res.val.injEq] at ey
  subst ey
  refine ⟨hy, ?_⟩
  obtain ⟨c1, c2⟩ := weight_complement wt (pushes h) x
  cases side with
  | left => exact ⟨y2, y1⟩
  | right =>
    simp only [Spec.tailWeight] at y1 y2
    constructor <;> linarith

theorem weight_step {wt : V → K} {ps : List (K × V)} (hw : ∀ q ∈ ps, 0 ≤ wt q.2) {x x' : K} (h : x' < x) :
    Spec.weightBeyond .left wt ps x' ≤ Spec.weightStrictlyBeyond .left wt ps x := by
  unfold Spec.weightBeyond Spec.weightStrictlyBeyond
  have : ps.filter (fun q => decide (Spec.geExt .left q.1 x'))
      = (ps.filter fun q => decide (Spec.gtExt .left q.1 x)).filter
          (fun q => decide (Spec.geExt .left q.1 x')) := by
    rw [List.filter_filter]
    apply List.filter_congr
    intro q _
    by_cases h' : Spec.geExt .left q.1 x'
    · have h2 : Spec.gtExt .left q.1 x := lt_of_le_of_lt h' h
      simp [h', h2]
    · simp [h']
  rw [this]
  exact totalWeight_filter_le (fun q hq => hw q (List.mem_of_mem_filter hq)) _

/-- **C74** Weighted tail quantiles are non-decreasing in the probability, across sides, caches and heaps, as
`C74_tail_quantile`. -/
theorem C74_wtail_quantile (H H' : HeapImpl ℕ) (side side' : Side) (hasNaN hasNaN' : Bool) (wt : V → K) {k k' : ℕ}
    (hk : 1 ≤ k) (hk' : 1 ≤ k') (x0 x0' : K) (v0 v0' : V) {h h' : List (Op (K × V) Unit)} (hh : pushes h = pushes h')
    (hw : ∀ q ∈ pushes h, 0 ≤ wt q.2) {p p' x x' : K}
    (hp : p < p' ∨ p = p' ∧ (side = .left ∨ side' = .right))
    (e : wtailQuantile H side hasNaN wt k x0 v0 h p = .val x)
    (e' : wtailQuantile H' side' hasNaN' wt k' x0' v0' h' p' = .val x') : x ≤ x' := by
  obtain ⟨-, r⟩ := C74_wtail_rank H side hasNaN wt hk x0 v0 h hw e
  obtain ⟨-, r'⟩ := C74_wtail_rank H' side' hasNaN' wt hk' x0' v0' h' (hh ▸ hw) e'
  rw [← hh] at r'
  by_contra hlt
  have hs := weight_step hw (not_le.1 hlt)
  have hW : 0 ≤ Spec.totalWeight wt (pushes h) := totalWeight_nonneg hw
  have hle : Spec.totalWeight wt (pushes h) * p ≤ Spec.totalWeight wt (pushes h) * p' := by
    rcases hp with h | ⟨rfl, -⟩
    · exact mul_le_mul_of_nonneg_left h.le hW
    · exact le_refl _
  cases side <;> cases side' <;> simp only at r r'
  · linarith
  · linarith
  · have hWp : 0 < Spec.totalWeight wt (pushes h) := by
      refine lt_of_le_of_ne hW fun h0 => ?_
      have h1 : Spec.weightBeyond .left wt (pushes h) x ≤ Spec.totalWeight wt (pushes h) :=
        totalWeight_filter_le hw _
      rw [← h0, zero_mul] at r
      rw [← h0] at h1
      linarith [r.2]
    have : Spec.totalWeight wt (pushes h) * p < Spec.totalWeight wt (pushes h) * p' := by
      rcases hp with h | ⟨-, h | h⟩
      · exact mul_lt_mul_of_pos_left h hWp
      · exact absurd h (by decide)
      · exact absurd h (by decide)
    linarith [r.1, r'.2]
  · linarith

/-! Weighted means of longer and longer initial parts of a list in order of extremity. -/

theorem wsum_le_mul {b : List (K × K)} {c : K} (hb : ∀ q ∈ b, 0 ≤ q.2) (hc : ∀ q ∈ b, q.1 ≤ c) :
    (b.map fun q => q.2 * q.1).sum ≤ c * Spec.wtotal b := by
  induction b with
  | nil => simp [Spec.wtotal]
  | cons r b ih =>
    have h1 := ih (fun q hq => hb q (by simp [hq])) fun q hq => hc q (by simp [hq])
    have h2 := mul_le_mul_of_nonneg_left (hc r (by simp)) (hb r (by simp))
    simp only [Spec.wtotal, List.map_cons, List.sum_cons] at *
    linarith

theorem wsum_cross {a b : List (K × K)} (ha : ∀ q ∈ a, 0 ≤ q.2) (hb : ∀ q ∈ b, 0 ≤ q.2)
    (hab : ∀ q ∈ a, ∀ r ∈ b, r.1 ≤ q.1) :
    Spec.wtotal a * (b.map fun q => q.2 * q.1).sum ≤ (a.map fun q => q.2 * q.1).sum * Spec.wtotal b := by
  induction a with
  | nil => simp [Spec.wtotal]
  | cons q a ih =>
    have h1 := ih (fun q hq => ha q (by simp [hq])) fun q hq => hab q (by simp [hq])
    have h2 := mul_le_mul_of_nonneg_left (wsum_le_mul hb (hab q (by simp))) (ha q (by simp))
    have e : Spec.wtotal (q :: a) = q.2 + Spec.wtotal a := by simp [Spec.wtotal]
    rw [e]
    simp only [List.map_cons, List.sum_cons]
    nlinarith

theorem wmean_prefix {a b : List (K × K)} (ha : ∀ q ∈ a, 0 ≤ q.2) (hb : ∀ q ∈ b, 0 ≤ q.2)
    (hW : 0 < Spec.wtotal a) (side : Side) (hab : ∀ q ∈ a, ∀ r ∈ b, Spec.geExt side q.1 r.1) :
    Spec.geExt side (Spec.wmean a) (Spec.wmean (a ++ b)) := by
  have hWb : 0 ≤ Spec.wtotal b := by
    apply List.sum_nonneg
    intro w h
    obtain ⟨q, hq, rfl⟩ := List.mem_map.1 h
    exact hb q hq
  have e : Spec.wtotal (a ++ b) = Spec.wtotal a + Spec.wtotal b := by simp [Spec.wtotal]
  have e' : ((a ++ b).map fun q => q.2 * q.1).sum
      = (a.map fun q => q.2 * q.1).sum + (b.map fun q => q.2 * q.1).sum := by simp
  cases side with
  | right =>
    have := wsum_cross ha hb hab
    simp only [Spec.geExt, Spec.wmean]
    rw [e', e, div_le_div_iff₀ (by linarith) hW]
    linarith
  | left =>
    have := wsum_cross hb ha fun q hq r hr => hab r hr q hq
    simp only [Spec.geExt, Spec.wmean]
    rw [e', e, div_le_div_iff₀ hW (by linarith)]
    linarith

/-- **C74** Weighted non-coherent tail means are non-decreasing in the probability. -/
theorem C74_wtail_mean (H : HeapImpl ℕ) (side : Side) (hasNaN : Bool) (wt : V → K) {k : ℕ} (hk : 1 ≤ k) (x0 : K)
    (v0 : V) (h : List (Op (K × V) Unit)) (hw : ∀ q ∈ pushes h, 0 ≤ wt q.2) {p p' x x' : K} (hpp : p ≤ p')
    (e : wtailMean H side hasNaN wt k x0 v0 h p = .val x)
    (e' : wtailMean H side hasNaN wt k x0 v0 h p' = .val x') : x ≤ x' := by
  obtain ⟨out, D, -, hv, -⟩ := wtail_out H side hk x0 v0 h
  have key : ∀ {p x : K}, wtailMean H side hasNaN wt k x0 v0 h p = .val x →
      ∃ sel : List (K × V), sel.Subperm (pushes h) ∧ sel.map Prod.snd = (out.map Prod.snd).take sel.length ∧
      sel.map Prod.fst = Spec.extremes side sel.length ((pushes h).map Prod.fst) ∧
      0 < Spec.tailWeight side (Spec.totalWeight wt (pushes h)) p ∧
      Spec.tailWeight side (Spec.totalWeight wt (pushes h)) p ≤ Spec.totalWeight wt sel ∧
      (∀ m < sel.length, Spec.totalWeight wt (sel.take m)
        < Spec.tailWeight side (Spec.totalWeight wt (pushes h)) p) ∧
      x = Spec.wmean (sel.map fun q => (q.1, wt q.2)) := by
    intro p x e
    have hT : 0 < Spec.tailWeight side (Spec.totalWeight wt (pushes h)) p := by
      by_contra hc
      rw [(C37_zero_ub H side hasNaN x0 v0 h hk (not_lt.1 hc)).2] at e
      simp at e
    have hc : Spec.tailWeight side (Spec.totalWeight wt (pushes h)) p ≤ ((out.map Prod.snd).map wt).sum := by
      by_contra hc
      rw [(C37_insufficient H side hasNaN x0 v0 h hk hw hv (not_le.1 hc)).2] at e
      cases hasNaN <;> simp at e
    obtain ⟨sel, s1, s2, s3, s4, s5, s6⟩ := C37_mean H side hasNaN x0 v0 h hk hT hv hc
    rw [e, Res.val.injEq] at s6
    exact ⟨sel, s1, s2, s3, hT, s4, s5, s6⟩
  -- an initial part of the other selection
  have pre : ∀ {s t : List (K × V)}, s.map Prod.snd = (out.map Prod.snd).take s.length →
      s.map Prod.fst = Spec.extremes side s.length ((pushes h).map Prod.fst) →
      t.map Prod.snd = (out.map Prod.snd).take t.length →
      t.map Prod.fst = Spec.extremes side t.length ((pushes h).map Prod.fst) → s.length ≤ t.length →
      s = t.take s.length := by
    intro s t a1 a2 b1 b2 hl
    have f1 : s.map Prod.snd = (t.take s.length).map Prod.snd := by
      rw [List.map_take, b1, List.take_take, Nat.min_eq_left hl, a1]
    have f2 : s.map Prod.fst = (t.take s.length).map Prod.fst := by
      rw [List.map_take, b2, extremes_take side hl, a2]
    apply List.ext_getElem
    · rw [List.length_take]; omega
    · intro i hi hj
      have g1 := congrArg (fun l => l[i]?) f1
      have g2 := congrArg (fun l => l[i]?) f2
      simp only [List.getElem?_map, List.getElem?_eq_getElem hi, List.getElem?_eq_getElem hj, Option.map_some,
        Option.some.injEq] at g1 g2
      exact Prod.ext g2 g1
  have main : ∀ {s t : List (K × V)}, s.map Prod.snd = (out.map Prod.snd).take s.length →
      s.map Prod.fst = Spec.extremes side s.length ((pushes h).map Prod.fst) → s.Subperm (pushes h) →
      t.map Prod.snd = (out.map Prod.snd).take t.length →
      t.map Prod.fst = Spec.extremes side t.length ((pushes h).map Prod.fst) → t.Subperm (pushes h) →
      s.length ≤ t.length → 0 < Spec.totalWeight wt s →
      Spec.geExt side (Spec.wmean (s.map fun q => (q.1, wt q.2))) (Spec.wmean (t.map fun q => (q.1, wt q.2))) := by
    intro s t a1 a2 a3 b1 b2 b3 hl h0
    have hs := pre a1 a2 b1 b2 hl
    have ht : t = s ++ t.drop s.length := by
      conv_lhs => rw [← List.take_append_drop s.length t, ← hs]
    have hsort : (t.map Prod.fst).Pairwise (Spec.geExt side) := by
      rw [b2]
      exact (byExtremity_sorted side _).sublist (List.take_sublist _ _)
    rw [ht, List.map_append, List.pairwise_append] at hsort
    rw [ht, List.map_append]
    have tw : Spec.wtotal (s.map fun q => (q.1, wt q.2)) = Spec.totalWeight wt s := by
      simp [Spec.wtotal, Spec.totalWeight, List.map_map, Function.comp_def]
    apply wmean_prefix
    · intro q hq
      obtain ⟨r, hr, rfl⟩ := List.mem_map.1 hq
      exact hw r (a3.subset hr)
    · intro q hq
      obtain ⟨r, hr, rfl⟩ := List.mem_map.1 hq
      exact hw r (b3.subset (List.mem_of_mem_drop hr))
    · rw [tw]; exact h0
    · intro q hq r hr
      obtain ⟨q', hq', rfl⟩ := List.mem_map.1 hq
      obtain ⟨r', hr', rfl⟩ := List.mem_map.1 hr
      exact hsort.2.2 _ (List.mem_map_of_mem hq') _ (List.mem_map_of_mem hr')
  -- the selection for the larger share is longer
  have len : ∀ {s t : List (K × V)} {T T' : K}, T ≤ T' → (∀ m < s.length, Spec.totalWeight wt (s.take m) < T) →
      T' ≤ Spec.totalWeight wt t → s.map Prod.snd = (out.map Prod.snd).take s.length →
      s.map Prod.fst = Spec.extremes side s.length ((pushes h).map Prod.fst) →
      t.map Prod.snd = (out.map Prod.snd).take t.length →
      t.map Prod.fst = Spec.extremes side t.length ((pushes h).map Prod.fst) → s.length ≤ t.length := by
    intro s t T T' hT a1 a2 b1 b2 b3 b4
    by_contra hc
    have hts := pre b3 b4 b1 b2 (by omega : t.length ≤ s.length)
    have := a1 t.length (by omega)
    rw [← hts] at this
    linarith
  have hW : 0 ≤ Spec.totalWeight wt (pushes h) := totalWeight_nonneg hw
  obtain ⟨s, s1, s2, s3, s4, s5, s6, rfl⟩ := key e
  obtain ⟨t, t1, t2, t3, t4, t5, t6, rfl⟩ := key e'
  cases side with
  | left =>
    have hT := mul_le_mul_of_nonneg_left hpp hW
    exact main s2 s3 s1 t2 t3 t1 (len hT s6 t5 s2 s3 t2 t3) (s4.trans_le s5)
  | right =>
    have hT := mul_le_mul_of_nonneg_left (sub_le_sub_left hpp 1) hW
    exact main t2 t3 t1 s2 s3 s1 (len hT t6 s5 t2 t3 s2 s3) (t4.trans_le t5)

end wtail

/-! ## Interpolated extended P-square quantiles -/

section interp

/-- On a piecewise line through non-decreasing estimates. -/
theorem epsqQuantile_linear_mono (nan nan' : Bool) {ps hs : List K} (hp : ps.Pairwise (· < ·)) (h0 : 0 < ps.length)
    (hl : hs.length = ps.length) (hh : hs.Pairwise (· ≤ ·)) {p p' v v' : K} (hpp : p ≤ p')
    (e : epsqQuantile .linear nan ps hs p = .val v) (e' : epsqQuantile .linear nan' ps hs p' = .val v') : v ≤ v' := by
  have hmono : ∀ {i j : ℕ} (hi : i < hs.length) (hj : j < hs.length), i ≤ j → hs[i] ≤ hs[j] := by
    intro i j hi hj hij
    rcases Nat.lt_or_ge i j with h | h
    · exact List.pairwise_iff_getElem.mp hh i j hi hj h
    · have : i = j := by omega
      subst this; exact le_refl _
  have hmp : ∀ {i j : ℕ} (hi : i < ps.length) (hj : j < ps.length), i ≤ j → ps[i] ≤ ps[j] := by
    intro i j hi hj hij
    rcases Nat.lt_or_ge i j with h | h
    · exact (List.pairwise_iff_getElem.mp hp i j hi hj h).le
    · have : i = j := by omega
      subst this; exact le_refl _
  rcases epsqQuantile_cases h0 p with h | ⟨k, hk, rfl⟩ | ⟨k, hk, h1, h2⟩
  · rw [C25_out_of_range .linear nan hs hp h0 h] at e
    cases nan <;> simp at e
  · rw [C25_exact .linear nan hp hl hk, Res.val.injEq] at e
    subst e
    rcases epsqQuantile_cases h0 p' with h | ⟨k', hk', rfl⟩ | ⟨k', hk', h1', h2'⟩
    · rw [C25_out_of_range .linear nan' hs hp h0 h] at e'
      cases nan' <;> simp at e'
    · rw [C25_exact .linear nan' hp hl hk', Res.val.injEq] at e'
      subst e'
      apply hmono
      by_contra hc
      exact absurd hpp (not_le.2 (List.pairwise_iff_getElem.mp hp k' k _ _ (by omega)))
    · rw [C25_linear nan' hp hl hk' h1' h2', Res.val.injEq] at e'
      subst e'
      refine le_trans ?_ (C25_linear_between (hmono _ _ (by omega)) h1' h2').1
      apply hmono
      by_contra hc
      exact absurd (h2'.trans_le (hmp (i := k' + 1) (j := k) _ _ (by omega))) (not_lt.2 hpp)
  · rw [C25_linear nan hp hl hk h1 h2, Res.val.injEq] at e
    subst e
    rcases epsqQuantile_cases h0 p' with h | ⟨k', hk', rfl⟩ | ⟨k', hk', h1', h2'⟩
    · rw [C25_out_of_range .linear nan' hs hp h0 h] at e'
      cases nan' <;> simp at e'
    · rw [C25_exact .linear nan' hp hl hk', Res.val.injEq] at e'
      subst e'
      refine le_trans (C25_linear_between (hmono _ _ (by omega)) h1 h2).2 ?_
      apply hmono
      by_contra hc
      exact absurd ((hmp (i := k') (j := k) _ _ (by omega)).trans_lt h1) (not_lt.2 hpp)
    · rw [C25_linear nan' hp hl hk' h1' h2', Res.val.injEq] at e'
      subst e'
      rcases Nat.lt_trichotomy k k' with hlt | rfl | hgt
      · exact (C25_linear_between (hmono _ _ (by omega)) h1 h2).2.trans
          ((hmono _ _ (by omega)).trans (C25_linear_between (hmono _ _ (by omega)) h1' h2').1)
      · unfold Spec.line
        have hd : 0 < ps[k + 1] - ps[k] := by linarith
        have := hmono (i := k) (j := k + 1) (by omega) (by omega) (by omega)
        have h3 : (p - ps[k]) / (ps[k + 1] - ps[k]) ≤ (p' - ps[k]) / (ps[k + 1] - ps[k]) :=
          div_le_div_of_nonneg_right (by linarith) hd.le
        have h4 := mul_le_mul_of_nonneg_right h3 (sub_nonneg.2 this)
        linarith
      · exact absurd ((h2'.trans_le (hmp (i := k' + 1) (j := k) _ _ (by omega))).trans h1) (not_lt.2 hpp)

/-- **C74** The linear variant of `extended_p_square_quantile` is non-decreasing in the probability. -/
theorem C74_linear (nan nan' : Bool) {ps : List K} (hp : ps.Pairwise (· < ·)) (h0 : 0 < ps.length)
    {h h' : List (Op K K)} (hh : pushes h = pushes h') (hn : 2 * ps.length + 3 ≤ (pushes h).length)
    {p p' v v' : K} (hpp : p ≤ p')
    (e : (epsqQuantileSet .linear nan ps).answer h p = .val (.val v))
    (e' : (epsqQuantileSet .linear nan' ps).answer h' p' = .val (.val v')) : v ≤ v' := by
  obtain ⟨vs, a1, a2, a3⟩ := C25_set .linear nan hp h0 (by simp) h p
  obtain ⟨vs', b1, b2, b3⟩ := C25_set .linear nan' hp h0 (by simp) h' p'
  rw [← hh, a1, Res.val.injEq] at b1
  subst b1
  obtain ⟨ws, c1, -, c3, -⟩ := C24_ordered ps (onlyPushes (Q := Unit) (pushes h)) (by simpa using hn)
  rw [a1, Res.val.injEq] at c1
  subst c1
  rw [e, Res.val.injEq] at a3
  rw [e', Res.val.injEq] at b3
  exact epsqQuantile_linear_mono nan nan' hp h0 a2 c3 hpp a3.symm b3.symm

/-- **C74** The same for the weighted version, for any weights. -/
theorem C74_wlinear (nan nan' : Bool) {ps : List K} (hp : ps.Pairwise (· < ·)) (h0 : 0 < ps.length)
    {h h' : List (Op (K × K) K)} (hh : pushes h = pushes h') (hn : 2 * ps.length + 3 ≤ (pushes h).length)
    {p p' v v' : K} (hpp : p ≤ p')
    (e : (wepsqQuantileSet .linear nan ps).answer h p = .val (.val v))
    (e' : (wepsqQuantileSet .linear nan' ps).answer h' p' = .val (.val v')) : v ≤ v' := by
  obtain ⟨vs, a1, a2, a3⟩ := C41_quantile .linear nan hp h0 (by simp) h p
  obtain ⟨vs', b1, b2, b3⟩ := C41_quantile .linear nan' hp h0 (by simp) h' p'
  rw [← hh, a1, Res.val.injEq] at b1
  subst b1
  obtain ⟨ws, c1, -, c3, -⟩ := C41_ordered (List.ne_nil_of_length_pos h0) (onlyPushes (Q := Unit) (pushes h))
    (by simpa using hn)
  rw [a1, Res.val.injEq] at c1
  subst c1
  rw [e, Res.val.injEq] at a3
  rw [e', Res.val.injEq] at b3
  exact epsqQuantile_linear_mono nan nan' hp h0 a2 c3 hpp a3.symm b3.symm

/-- Nine samples, five of them 0. -/
def nineSamples (Q : Type) : List (Op ℚ Q) :=
  [.push 0, .push 1, .push 0, .push 1, .push 0, .push 1, .push 0, .push 1, .push 0]

/-- **C74 (and the bound of C25) fails** for the quadratic variant on a reachable state: with the probabilities
0.1, 0.5, 0.6 and the samples 0, 1, 0, 1, 0, 1, 0, 1, 0 the quantile of 0.1 is 0 and the quantile of 0.3 is negative. -/
theorem C74_quadratic_fails :
    ∃ v v', (epsqQuantileSet .quadratic true [1 / 10, 5 / 10, 6 / 10]).answer (nineSamples ℚ) (1 / 10) = .val (.val v) ∧
      (epsqQuantileSet .quadratic true [1 / 10, 5 / 10, 6 / 10]).answer (nineSamples ℚ) (3 / 10) = .val (.val v') ∧
      v' < v ∧ ∀ x ∈ pushes (nineSamples ℚ), v' < x :=
  ⟨0, -4 / 5, by decide +kernel, by decide +kernel, by norm_num, by decide +kernel⟩

/-- **C74 fails** between separate `p_square_quantile` accumulators: of the same seven samples, the estimate of the
median exceeds the estimate of the 0.6 quantile. -/
theorem C74_psq_crossing :
    let h : List (Op ℚ Unit) := [.push 9, .push 0, .push 1, .push 6, .push 8, .push 9, .push 6]
    ∃ v v', (psqQuantileSet (1 / 2)).answer h () = .val v ∧ (psqQuantileSet (6 / 10)).answer h () = .val v' ∧
      v' < v :=
  ⟨7, 41 / 6, by decide +kernel, by decide +kernel, by norm_num⟩

end interp

/-! ## The hypotheses can be met -/

/-- Five samples with weights. -/
def fiveWeighted : List (Op (ℚ × ℚ) Unit) :=
  [.push (3, 1), .push (1, 2), .query (), .push (7, 1), .push (2, 0), .push (4, 2)]

/-- Different sides, caches and probabilities: 0.3 from the left, 0.5 from the right. -/
example : (2 : ℚ) ≤ 3 :=
  C74_tail_quantile HeapImpl.simple HeapImpl.simple .left .right true false (k := 3) (k' := 4) (by norm_num)
    (by norm_num) 0 0 0 0 (h := fiveWeighted) (h' := fiveWeighted) rfl (p := 3 / 10) (p' := 1 / 2) (by norm_num)
    (by norm_num) (Or.inl (by norm_num)) (by decide +kernel) (by decide +kernel)

/-- At one probability with `count · p = 2.5`. -/
example : (3 : ℚ) = 3 :=
  C74_tail_sides HeapImpl.simple HeapImpl.simple true false (k := 4) (k' := 4) (by norm_num) (by norm_num) 0 0 0 0
    (h := fiveWeighted) (h' := fiveWeighted) rfl (p := 1 / 2) (by norm_num) (by norm_num)
    (by
      intro n h
      have h2 : (5 : ℚ) = ((2 * n : ℤ) : ℚ) := by
        have : ((pushes fiveWeighted).length : ℚ) = 5 := by decide +kernel
        rw [this] at h
        push_cast
        linarith
      have : (5 : ℤ) = 2 * n := by exact_mod_cast h2
      omega) (by decide +kernel) (by decide +kernel)

example : (14 / 3 : ℚ) ≤ 11 / 2 :=
  C74_tail_mean HeapImpl.simple HeapImpl.simple .right true false (k := 4) (k' := 3) (by norm_num) (by norm_num) 0 0
    0 0 (h := fiveWeighted) (h' := fiveWeighted) rfl (p := 1 / 2) (p' := 3 / 5) (by norm_num) (by norm_num)
    (by norm_num) (by decide +kernel) (by decide +kernel)

/-- Weighted, from the right at 0.4 and from the left at 0.6. -/
example : (3 : ℚ) ≤ 4 :=
  C74_wtail_quantile HeapImpl.simple HeapImpl.simple .right .left true false id (k := 4) (k' := 5) (by norm_num)
    (by norm_num) 0 0 0 0 (h := fiveWeighted) (h' := fiveWeighted) rfl
    (by intro q hq; simp [fiveWeighted, pushes] at hq; rcases hq with rfl | rfl | rfl | rfl | rfl <;> norm_num)
    (p := 2 / 5) (p' := 3 / 5) (Or.inl (by norm_num)) (by decide +kernel) (by decide +kernel)

example : (9 / 2 : ℚ) ≤ 5 :=
  C74_wtail_mean HeapImpl.simple .right true id (k := 4) (by norm_num) 0 0 fiveWeighted
    (by intro q hq; simp [fiveWeighted, pushes] at hq; rcases hq with rfl | rfl | rfl | rfl | rfl <;> norm_num)
    (p := 2 / 5) (p' := 3 / 5) (by norm_num) (by decide +kernel) (by decide +kernel)

example : (0 : ℚ) ≤ 1 / 2 :=
  C74_linear true false (ps := [1 / 10, 5 / 10, 6 / 10]) (by norm_num) (by norm_num) (h := nineSamples ℚ)
    (h' := .query (1 / 2) :: nineSamples ℚ) rfl (by decide +kernel) (p := 3 / 10) (p' := 55 / 100) (by norm_num)
    (by decide +kernel) (by decide +kernel)

/-- Weighted: the nine samples with weights 1 and 2. -/
example : (0 : ℚ) ≤ 1 / 2 :=
  C74_wlinear true false (ps := [1 / 10, 5 / 10, 6 / 10]) (by norm_num) (by norm_num)
    (h := [.push (0, 1), .push (1, 2), .push (0, 1), .push (1, 2), .push (0, 1), .push (1, 1), .push (0, 1),
      .push (1, 2), .push (0, 1)])
    (h' := [.push (0, 1), .push (1, 2), .push (0, 1), .push (1, 2), .push (0, 1), .push (1, 1), .push (0, 1),
      .push (1, 2), .push (0, 1)]) rfl (by decide +kernel) (p := 3 / 10) (p' := 55 / 100) (by norm_num)
    (by decide +kernel) (by decide +kernel)

end Acc
