import Verif.Proofs.Round
import Verif.Props.WTail
import Verif.Props.Round

/-!
# C67: order statistics of the tail under rounding

The tail estimators compare samples, which is exact; but they find the rank from `std::ceil(count * p)` and, with weights,
from a running sum, and these are rounded.  `p` is the probability the user has in mind, `Fl.ofK R p` the number passed.
-/

set_option linter.unusedSectionVars false

namespace Acc

variable {K : Type} [Field K] [LinearOrder K] [IsStrictOrderedRing K] {R : Rounding K} {u : K} {V : Type}

/-- The exact level. -/
theorem level_mem {side : Side} {p : K} (h0 : 0 ≤ p) (h1 : p ≤ 1) : 0 ≤ tailLevel side p ∧ tailLevel side p ≤ 1 := by
  cases side <;> simp only [tailLevel] <;> constructor <;> linarith

/-- The computed level: off by at most two roundings, and still between 0 and 1. -/
theorem level_err (hu : R.RelErr u) (side : Side) {p : K} (h0 : 0 ≤ p) (h1 : p ≤ 1) :
    0 ≤ (tailLevel side (Fl.ofK R p)).val ∧ (tailLevel side (Fl.ofK R p)).val ≤ 1 ∧
      |(tailLevel side (Fl.ofK R p)).val - tailLevel side p| ≤ 2 * u := by
  have hu0 := hu.nonneg
  have hp0 : 0 ≤ R.rd p := R.nonneg h0
  have hp1 : R.rd p ≤ 1 := R.one ▸ R.mono h1
  have e1 : |R.rd p - p| ≤ u := by
    refine (hu p).trans ?_
    rw [abs_of_nonneg h0]
    nlinarith
  cases side with
  | left => exact ⟨hp0, hp1, by simp only [tailLevel, Fl.val_ofK]; linarith⟩
  | right =>
    simp only [tailLevel, Fl.val_sub, Fl.val_one, Fl.val_ofK]
    refine ⟨R.nonneg (by linarith), ?_, ?_⟩
    · have := R.mono (show 1 - R.rd p ≤ 1 by linarith)
      rwa [R.one] at this
    · have e2 : |R.rd (1 - R.rd p) - (1 - R.rd p)| ≤ u := by
        refine (hu _).trans ?_
        rw [abs_of_nonneg (by linarith)]
        nlinarith
      calc |R.rd (1 - R.rd p) - (1 - p)| = |(R.rd (1 - R.rd p) - (1 - R.rd p)) + (p - R.rd p)| := by ring_nf
        _ ≤ |R.rd (1 - R.rd p) - (1 - R.rd p)| + |p - R.rd p| := abs_add_le _ _
        _ ≤ 2 * u := by rw [abs_sub_comm p]; linarith

section rank
variable [FloorRing K]

/-- The number whose ceiling is the rank. -/
theorem rank_err (hu : R.RelErr u) (side : Side) {cnt : ℕ} (hc : R.rd (cnt : K) = cnt) {p : K} (h0 : 0 ≤ p) (h1 : p ≤ 1) :
    0 ≤ (((cnt : ℕ) : Fl R) * tailLevel side (Fl.ofK R p)).val ∧
      (((cnt : ℕ) : Fl R) * tailLevel side (Fl.ofK R p)).val ≤ cnt ∧
      |(((cnt : ℕ) : Fl R) * tailLevel side (Fl.ofK R p)).val - (cnt : K) * tailLevel side p| ≤ 3 * u * cnt := by
  obtain ⟨a, b, c⟩ := level_err hu side h0 h1
  have hu0 := hu.nonneg
  have hn : (0 : K) ≤ cnt := Nat.cast_nonneg _
  rw [Fl.val_mul, Fl.val_natCast, hc]
  generalize (tailLevel side (Fl.ofK R p)).val = L at a b c
  have hL : (cnt : K) * L ≤ cnt := by nlinarith
  refine ⟨R.nonneg (mul_nonneg hn a), ?_, ?_⟩
  · have := R.mono hL
    rwa [hc] at this
  · have e1 : |R.rd (cnt * L) - cnt * L| ≤ u * cnt := by
      refine (hu _).trans ?_
      rw [abs_of_nonneg (mul_nonneg hn a)]
      exact mul_le_mul_of_nonneg_left hL hu0
    have e2 : |(cnt : K) * L - cnt * tailLevel side p| ≤ cnt * (2 * u) := by
      rw [← mul_sub, abs_mul, abs_of_nonneg hn]
      exact mul_le_mul_of_nonneg_left c hn
    calc |R.rd (cnt * L) - cnt * tailLevel side p|
        = |(R.rd (cnt * L) - cnt * L) + (cnt * L - cnt * tailLevel side p)| := by ring_nf
      _ ≤ |R.rd (cnt * L) - cnt * L| + |cnt * L - cnt * tailLevel side p| := abs_add_le _ _
      _ ≤ 3 * u * cnt := by linarith

theorem tailCount_level (side : Side) (cnt : ℕ) (p : K) : Spec.tailCount side cnt p = ⌈(cnt : K) * tailLevel side p⌉ := by
  cases side <;> rfl

/-- **C67** For fewer than `1 / (3 u)` samples (`3 · 10^15` for `double`) the rank computed in floating point is off by at most
one, and never exceeds the number of samples. -/
theorem C67_rank (hu : R.RelErr u) (side : Side) {cnt : ℕ} (hc : R.rd (cnt : K) = cnt) (hs : 3 * u * cnt < 1) {p : K}
    (h0 : 0 ≤ p) (h1 : p ≤ 1) :
    ∃ n : ℕ, tailN side cnt (Fl.ofK R p) = .val n ∧ n ≤ cnt ∧
      |(n : ℤ) - Spec.tailCount side cnt p| ≤ 1 := by
  obtain ⟨a, b, c⟩ := rank_err hu side hc h0 h1
  unfold tailN
  rw [tailCount_level]
  show ∃ n : ℕ, (if ⌈(((cnt : ℕ) : Fl R) * tailLevel side (Fl.ofK R p)).val⌉ < 0 then Res.ub
    else .val ⌈(((cnt : ℕ) : Fl R) * tailLevel side (Fl.ofK R p)).val⌉.toNat) = .val n ∧ _
  generalize (((cnt : ℕ) : Fl R) * tailLevel side (Fl.ofK R p)).val = X at a b c
  have hX : 0 ≤ ⌈X⌉ := Int.ceil_nonneg a
  rw [if_neg (by omega)]
  refine ⟨_, rfl, ?_, ?_⟩
  · have : ⌈X⌉ ≤ (cnt : ℤ) := Int.ceil_le.2 (by exact_mod_cast b)
    omega
  · rw [Int.toNat_of_nonneg hX]
    have c' := abs_lt.1 (lt_of_le_of_lt c hs)
    rw [abs_le]
    constructor
    · have : ⌈(cnt : K) * tailLevel side p⌉ ≤ ⌈X⌉ + 1 := Int.ceil_le.2 (by
        have := Int.le_ceil X
        push_cast
        linarith [c'.1])
      omega
    · have : ⌈X⌉ ≤ ⌈(cnt : K) * tailLevel side p⌉ + 1 := Int.ceil_le.2 (by
        have := Int.le_ceil ((cnt : K) * tailLevel side p)
        push_cast
        linarith [c'.2])
      omega

/-- **C67** When `count * p` is a whole number `m`, as for the median of an even number of samples, the computed rank is `m` or
`m + 1`. -/
theorem C67_rank_whole (hu : R.RelErr u) (side : Side) {cnt : ℕ} (hc : R.rd (cnt : K) = cnt) (hs : 3 * u * cnt < 1) {p : K}
    (h0 : 0 ≤ p) (h1 : p ≤ 1) {m : ℕ} (hm : (cnt : K) * (match side with | .left => p | .right => 1 - p) = m) :
    tailN side cnt (Fl.ofK R p) = .val m ∨ tailN side cnt (Fl.ofK R p) = .val (m + 1) := by
  have hm' : (cnt : K) * tailLevel side p = m := by rw [← hm]; cases side <;> rfl
  obtain ⟨n, hn, -, hd⟩ := C67_rank hu side hc hs h0 h1
  have hn' := hn
  obtain ⟨a, b, c⟩ := rank_err hu side hc h0 h1
  rw [tailCount_level, hm', Int.ceil_natCast, abs_le] at hd
  have hlow : m ≤ n := by
    unfold tailN at hn'
    change (if ⌈(((cnt : ℕ) : Fl R) * tailLevel side (Fl.ofK R p)).val⌉ < 0 then Res.ub
      else .val ⌈(((cnt : ℕ) : Fl R) * tailLevel side (Fl.ofK R p)).val⌉.toNat) = .val n at hn'
    generalize (((cnt : ℕ) : Fl R) * tailLevel side (Fl.ofK R p)).val = X at *
    have hX : 0 ≤ ⌈X⌉ := Int.ceil_nonneg a
    rw [if_neg (by omega)] at hn'
    have : ⌈X⌉.toNat = n := Res.val.inj hn'
    have c' := abs_lt.1 (lt_of_le_of_lt c hs)
    rw [hm'] at c'
    have : ((m : ℤ) : K) < ⌈X⌉ + 1 := by
      have := Int.le_ceil X
      push_cast
      linarith [c'.1]
    have : (m : ℤ) < ⌈X⌉ + 1 := by exact_mod_cast this
    omega
  rcases (show n = m ∨ n = m + 1 by omega) with rfl | rfl
  · exact Or.inl hn
  · exact Or.inr hn

/-- **C67** The rank is exact when the intermediate numbers are representable. -/
theorem C67_rank_exact (side : Side) {cnt : ℕ} (hc : R.rd (cnt : K) = cnt) {p : K} (hp : R.rd p = p)
    (hl : R.rd (1 - p) = 1 - p) (hx : R.rd (cnt * (match side with | .left => p | .right => 1 - p))
      = cnt * (match side with | .left => p | .right => 1 - p)) {n : ℕ} (hn : Spec.tailCount side cnt p = n) :
    tailN side cnt (Fl.ofK R p) = .val n := by
  have e : (((cnt : ℕ) : Fl R) * tailLevel side (Fl.ofK R p)).val = (cnt : K) * tailLevel side p := by
    rw [Fl.val_mul, Fl.val_natCast, hc]
    cases side with
    | left => simp only [tailLevel, Fl.val_ofK, hp]; exact hx
    | right => simp only [tailLevel, Fl.val_sub, Fl.val_one, Fl.val_ofK, hp, hl]; exact hx
  unfold tailN
  show (if ⌈(((cnt : ℕ) : Fl R) * tailLevel side (Fl.ofK R p)).val⌉ < 0 then Res.ub
    else .val ⌈(((cnt : ℕ) : Fl R) * tailLevel side (Fl.ofK R p)).val⌉.toNat) = .val n
  rw [e, ← tailCount_level, hn]
  simp

/-- `C18_quantile` for an arbitrary number type: the rank is whatever the arithmetic makes it. -/
theorem tailQuantile_of_rank {K : Type} [Arith K] [LinearOrder K] [Ceil K] (H : HeapImpl ℕ) (side : Side) (hasNaN : Bool)
    {k : ℕ} (x0 : K) (v0 : V) (h : List (Op (K × V) Unit)) {p : K} {n : ℕ} (hk : 1 ≤ k)
    (hn : tailN side (pushes h).length p = .val n) (h1 : 1 ≤ n) (h2 : n < min k (pushes h).length) :
    ∃ x, tailQuantile H side hasNaN k x0 v0 h p = .val x ∧
      (Spec.byExtremity side ((pushes h).map Prod.fst))[n - 1]? = some x := by
  obtain ⟨s, out, hr, ht, _, h3, _⟩ := extract_both H side hk x0 v0 h
  have hl := extremes_length side k ((pushes h).map Prod.fst)
  rw [← h3] at hl
  have hl' : (out.map Prod.fst).length = min k (pushes h).length := by rw [hl]; simp
  have hidx : n - 1 < (out.map Prod.fst).length := by omega
  refine ⟨(out.map Prod.fst)[n - 1], ?_, ?_⟩
  · simp only [tailQuantile, hr, Res.val_bind, hn, ht, tailQuantileResult]
    rw [if_pos (by omega), if_neg (by omega), List.getElem?_eq_getElem hidx]
  · have : ((Spec.byExtremity side ((pushes h).map Prod.fst)).take k)[n - 1]? =
        some (out.map Prod.fst)[n - 1] := by
      rw [show (Spec.byExtremity side ((pushes h).map Prod.fst)).take k =
        Spec.extremes side k ((pushes h).map Prod.fst) from rfl, ← h3,
        List.getElem?_eq_getElem hidx]
    rw [List.getElem?_take_of_lt (by omega)] at this
    exact this

/-- **C67** The tail quantile computed in floating point is an exact order statistic, whose rank is off by at most one. -/
theorem C67_quantile (hu : R.RelErr u) (H : HeapImpl ℕ) (side : Side) (hasNaN : Bool) {k : ℕ} (hk : 1 ≤ k) (x0 : Fl R)
    (v0 : V) (h : List (Op (Fl R × V) Unit)) (hc : R.rd ((pushes h).length : K) = (pushes h).length)
    (hs : 3 * u * (pushes h).length < 1) {p : K} (h0 : 0 ≤ p) (h1 : p ≤ 1) {m : ℕ}
    (hm : Spec.tailCount side (pushes h).length p = m) (hm1 : 2 ≤ m) (hm2 : m + 1 < min k (pushes h).length) :
    ∃ x n, tailQuantile H side hasNaN k x0 v0 h (Fl.ofK R p) = .val x ∧
      (n = m - 1 ∨ n = m ∨ n = m + 1) ∧ (Spec.byExtremity side ((pushes h).map Prod.fst))[n - 1]? = some x := by
  obtain ⟨n, hn, -, hd⟩ := C67_rank hu side hc hs h0 h1
  rw [hm, abs_le] at hd
  obtain ⟨x, hx, hx'⟩ := tailQuantile_of_rank H side hasNaN x0 v0 h hk hn (by omega) (by omega)
  exact ⟨x, n, hx, by omega, hx'⟩

/-- **C67** The tail mean computed in floating point is the mean of the `n` most extreme samples, `n` being the computed rank,
up to the error of `n` additions and a division. -/
theorem C67_tail_mean (hu : R.RelErr u) (H : HeapImpl ℕ) (side : Side) (hasNaN : Bool) {k : ℕ} (hk : 1 ≤ k) (x0 : Fl R)
    (v0 : V) (h : List (Op (Fl R × V) Unit)) {p : Fl R} {n : ℕ} (hn : tailN side (pushes h).length p = .val n)
    (hc : R.rd (n : K) = n) (h1 : 1 ≤ n) (h2 : n ≤ min k (pushes h).length) :
    ∃ m : Fl R, nonCoherentTailMean H side hasNaN k x0 v0 h p = .val m ∧
      |m.val - ((Spec.extremes side n ((pushes h).map Prod.fst)).map Fl.val).sum / n|
        ≤ ((1 + u) ^ (n + 1) - 1) * (((Spec.extremes side n ((pushes h).map Prod.fst)).map fun x => |x.val|).sum / n) := by
  obtain ⟨s, out, hr, ht, _, h3, _⟩ := extract_both H side hk x0 v0 h
  have hl := extremes_length side k ((pushes h).map Prod.fst)
  rw [List.length_map] at hl
  rw [h3] at ht
  have hnl : n ≤ (Spec.extremes side k ((pushes h).map Prod.fst)).length := by omega
  have htk : (Spec.extremes side k ((pushes h).map Prod.fst)).take n = Spec.extremes side n ((pushes h).map Prod.fst) :=
    extremes_take side (by omega) _
  have hln : (Spec.extremes side n ((pushes h).map Prod.fst)).length = n := by
    rw [← htk, List.length_take]; omega
  simp only [nonCoherentTailMean, hr, Res.val_bind, hn, ht, nonCoherentTailMeanResult]
  rw [if_pos hnl, htk]
  generalize Spec.extremes side n ((pushes h).map Prod.fst) = E at *
  have hsum := foldl_add_err hu (fun x : Fl R => x) Fl.val (d := 0) le_rfl (fun a => by simp) 0 E
  simp only [Fl.val_zero, abs_zero, zero_add, add_zero, mul_one, hln] at hsum
  obtain ⟨m, e, hm⟩ := div_count_err hu h1 hc (abs_sum_le Fl.val E) hsum
  refine ⟨m, e, hm.trans (le_of_eq ?_)⟩
  rw [pow_succ]
  ring

end rank

/-! ### With weights -/

/-- The search stops at the first prefix whose sum, as computed, reaches the threshold. -/
theorem wtailLoop_cases {K : Type} [Arith K] [LinearOrder K] (e : Res (ℕ × K)) (T : K) (c : ℕ) (s : K) (ws : List K) :
    (∃ n ≤ ws.length, (∀ m < n, (ws.take m).foldl (· + ·) s < T) ∧ T ≤ (ws.take n).foldl (· + ·) s ∧
      wtailLoop e T c s ws = .val (c + n, (ws.take n).foldl (· + ·) s)) ∨
    ((∀ m ≤ ws.length, (ws.take m).foldl (· + ·) s < T) ∧ wtailLoop e T c s ws = e) := by
  induction ws generalizing c s with
  | nil =>
    by_cases h : s < T
    · exact Or.inr ⟨fun m _ => by simpa using h, by simp [wtailLoop, h]⟩
    · exact Or.inl ⟨0, by simp, by simp, by simpa using h, by simp [wtailLoop, h]⟩
  | cons w ws ih =>
    by_cases h : s < T
    · have hrec : wtailLoop e T c s (w :: ws) = wtailLoop e T (c + 1) (s + w) ws := by rw [wtailLoop, if_pos h]
      rcases ih (c + 1) (s + w) with ⟨n, h1, h2, h3, h4⟩ | ⟨h1, h2⟩
      · refine Or.inl ⟨n + 1, by simpa using h1, ?_, by simpa using h3, ?_⟩
        · intro m hm
          cases m with
          | zero => simpa using h
          | succ m => simpa using h2 m (by omega)
        · rw [hrec, h4]
          simp only [List.take_succ_cons, List.foldl_cons]
          congr 2
          omega
      · refine Or.inr ⟨?_, by rw [hrec, h2]⟩
        intro m hm
        cases m with
        | zero => simpa using h
        | succ m => simpa using h1 m (by simpa using hm)
    · exact Or.inl ⟨0, by simp, by simp, by simpa using h, by rw [wtailLoop, if_neg h]; simp⟩

theorem sum_take_le {l : List K} (h : ∀ x ∈ l, 0 ≤ x) (n : ℕ) : (l.take n).sum ≤ l.sum := by
  conv_rhs => rw [← List.take_append_drop n l, List.sum_append]
  have : 0 ≤ (l.drop n).sum := List.sum_nonneg fun x hx => h x (List.mem_of_mem_drop hx)
  linarith

/-- A prefix of non-negative weights, summed with rounding. -/
theorem prefix_err (hu : R.RelErr u) (ws : List (Fl R)) (hw : ∀ w ∈ ws, 0 ≤ w) (n : ℕ) {N : ℕ} (hN : ws.length ≤ N) :
    |((ws.take n).foldl (· + ·) 0).val - ((ws.map Fl.val).take n).sum|
      ≤ ((1 + u) ^ N - 1) * (ws.map Fl.val).sum := by
  have hu0 := hu.nonneg
  have h := foldl_add_err hu (fun x : Fl R => x) Fl.val (d := 0) le_rfl (fun a => by simp) 0 (ws.take n)
  simp only [Fl.val_zero, abs_zero, zero_add, add_zero, mul_one] at h
  have hnn : ∀ x ∈ ws.map Fl.val, 0 ≤ x := by
    intro x hx
    obtain ⟨w, hw', rfl⟩ := List.mem_map.1 hx
    exact hw w hw'
  have habs : ((ws.take n).map fun a => |a.val|) = (ws.map Fl.val).take n := by
    rw [← List.map_take]
    refine List.map_congr_left fun a ha => abs_of_nonneg (hw a (List.mem_of_mem_take ha))
  rw [habs, List.map_take] at h
  refine h.trans (mul_le_mul ?_ (sum_take_le hnn n) (List.sum_nonneg fun x hx => hnn x (List.mem_of_mem_take hx)) ?_)
  · have : (1 + u) ^ (ws.take n).length ≤ (1 + u) ^ N :=
      pow_le_pow_right₀ (by linarith) (by rw [List.length_take]; omega)
    linarith
  · have : 1 ≤ (1 + u) ^ N := one_le_pow₀ (by linarith)
    linarith

/-- The threshold, computed with rounding. -/
theorem threshold_err (hu : R.RelErr u) (side : Side) (ws : List (Fl R)) (hw : ∀ w ∈ ws, 0 ≤ w) {p : K} (h0 : 0 ≤ p)
    (h1 : p ≤ 1) :
    |(wtailThreshold side ws (Fl.ofK R p)).val - (ws.map Fl.val).sum * tailLevel side p|
      ≤ ((1 + u) ^ (ws.length + 3) - 1) * (ws.map Fl.val).sum := by
  have hu0 := hu.nonneg
  obtain ⟨a, b, c⟩ := level_err hu side h0 h1
  obtain ⟨d, e⟩ := level_mem (side := side) h0 h1
  have hs := prefix_err hu ws hw ws.length le_rfl
  rw [List.take_length, List.take_of_length_le (by simp)] at hs
  have hW : 0 ≤ (ws.map Fl.val).sum := List.sum_nonneg fun x hx => by
    obtain ⟨w, hw', rfl⟩ := List.mem_map.1 hx
    exact hw w hw'
  unfold wtailThreshold
  rw [Fl.val_mul]
  generalize (tailLevel side (Fl.ofK R p)).val = L at *
  generalize (ws.foldl (· + ·) 0).val = S at *
  generalize (ws.map Fl.val).sum = W at *
  generalize tailLevel side p = l at *
  have hg : 1 ≤ (1 + u) ^ ws.length := one_le_pow₀ (by linarith)
  have hSle : |S| ≤ (1 + u) ^ ws.length * W := by
    calc |S| = |(S - W) + W| := by ring_nf
      _ ≤ |S - W| + |W| := abs_add_le _ _
      _ ≤ _ := by rw [abs_of_nonneg hW]; linarith
  have hz : |S * L - W * l| ≤ ((1 + u) ^ ws.length * (1 + 2 * u) - 1) * W := by
    calc |S * L - W * l| = |S * (L - l) + (S - W) * l| := by ring_nf
      _ ≤ |S| * |L - l| + |S - W| * l := by
          refine (abs_add_le _ _).trans ?_
          rw [abs_mul, abs_mul, abs_of_nonneg d]
      _ ≤ ((1 + u) ^ ws.length * W) * (2 * u) + (((1 + u) ^ ws.length - 1) * W) * 1 := by
          refine add_le_add (mul_le_mul hSle c (abs_nonneg _) (by positivity)) ?_
          exact mul_le_mul hs e d (mul_nonneg (by linarith) hW)
      _ = _ := by ring
  refine (hu.round (t := W * l) (a := W) ?_ hz).trans (mul_le_mul_of_nonneg_right ?_ hW)
  · rw [abs_of_nonneg (mul_nonneg hW d)]
    nlinarith
  · have : (1 + u) * ((1 + u) ^ ws.length * (1 + 2 * u)) ≤ (1 + u) ^ (ws.length + 3) := by
      have : (1 + u) ^ (ws.length + 3) = (1 + u) * ((1 + u) ^ ws.length * (1 + u) ^ 2) := by ring
      rw [this]
      have : 1 + 2 * u ≤ (1 + u) ^ 2 := by nlinarith
      gcongr
    linarith

theorem geExt_val {side : Side} {a b : Fl R} : Spec.geExt side a.val b.val ↔ Spec.geExt side a b := by
  cases side <;> rfl

/-- **C67** The weighted tail quantile computed in floating point is a sample at which the accumulated weight reaches the
wanted share up to the relative error of the sums: if it returns a value `x`, then `x` is one of the samples, those at least
as extreme carry the share minus `ε`, and those strictly more extreme less than the share plus `ε`.  It does return a value
if the share exceeds `ε` and the weights listed by `tail_weights(acc)` add up to the share plus `ε`. -/
theorem C67_weighted_quantile (hu : R.RelErr u) (H : HeapImpl ℕ) (side : Side) (hasNaN : Bool) {wt : V → Fl R} {k : ℕ}
    (hk : 1 ≤ k) (x0 : Fl R) (v0 : V) (h : List (Op (Fl R × V) Unit)) (hw : ∀ q ∈ pushes h, 0 ≤ wt q.2) {p : K} (h0 : 0 ≤ p)
    (h1 : p ≤ 1) {ps : List (K × V)} (hps : ps = (pushes h).map fun q => (q.1.val, q.2)) {T ε : K}
    (hT : T = Spec.tailWeight side (Spec.totalWeight (fun v => (wt v).val) ps) p)
    (hε : ε = 2 * ((1 + u) ^ (ps.length + 3) - 1) * Spec.totalWeight (fun v => (wt v).val) ps) :
    (∀ x : Fl R, wtailQuantile H side hasNaN wt k x0 v0 h (Fl.ofK R p) = .val x →
      x.val ∈ ps.map Prod.fst ∧ T - ε ≤ Spec.weightBeyond side (fun v => (wt v).val) ps x.val ∧
        Spec.weightStrictlyBeyond side (fun v => (wt v).val) ps x.val < T + ε) ∧
    (ε < T → (∀ v, extractTailVariate H side k x0 v0 h = .val v → T + ε ≤ (v.map fun v => (wt v).val).sum) →
      ∃ x, wtailQuantile H side hasNaN wt k x0 v0 h (Fl.ofK R p) = .val x) := by
  have hu0 := hu.nonneg
  obtain ⟨out, D, ht, hv', hp, hD, hex, hs, hq, -⟩ := wtail_out H side hk x0 v0 h
  rw [hq]
  have hwo : ∀ q ∈ out, 0 ≤ wt q.2 := fun q hq => hw q (hp.mem_iff.1 (List.mem_append_left _ hq))
  have hthr := threshold_err hu side ((pushes h).map fun q => wt q.2) (by
    intro w hw'
    obtain ⟨q, hq', rfl⟩ := List.mem_map.1 hw'
    exact hw q hq') h0 h1
  have hlen : ps.length = (pushes h).length := by rw [hps]; simp
  have hWs : (((pushes h).map fun q => wt q.2).map Fl.val).sum = Spec.totalWeight (fun v => (wt v).val) ps := by
    rw [hps]; simp only [Spec.totalWeight, List.map_map]; rfl
  have hTs : Spec.totalWeight (fun v => (wt v).val) ps * tailLevel side p = T := by
    rw [hT]; cases side <;> rfl
  rw [hWs, List.length_map, ← hlen, hTs] at hthr
  have hol : out.length ≤ ps.length := by
    rw [hlen, ← hp.length_eq, List.length_append]; omega
  -- the same lists over the exact numbers
  have hp' : ((out.map fun q => (q.1.val, q.2)) ++ D.map fun q => (q.1.val, q.2)).Perm ps := by
    rw [hps, ← List.map_append]; exact hp.map _
  have hD' : ∀ d ∈ D.map (fun q : Fl R × V => (q.1.val, q.2)), ∀ c ∈ out.map (fun q : Fl R × V => (q.1.val, q.2)),
      Spec.geExt side c.1 d.1 := by
    intro d hd c hc
    obtain ⟨d', hd', rfl⟩ := List.mem_map.1 hd
    obtain ⟨c', hc', rfl⟩ := List.mem_map.1 hc
    exact geExt_val.2 (hD d' hd' c' hc')
  have hs' : (out.map fun q : Fl R × V => (q.1.val, q.2)).Pairwise fun a b => Spec.geExt side a.1 b.1 := by
    rw [List.pairwise_map]
    exact hs.imp fun h => geExt_val.2 h
  have hw' : ∀ q ∈ ps, 0 ≤ (wt q.2).val := by
    intro q hq
    rw [hps] at hq
    obtain ⟨q', hq', rfl⟩ := List.mem_map.1 hq
    exact hw q' hq'
  have hWle : Spec.totalWeight (fun v => (wt v).val) (out.map fun q => (q.1.val, q.2))
      ≤ Spec.totalWeight (fun v => (wt v).val) ps := by
    rw [← totalWeight_perm hp', totalWeight_append]
    have : 0 ≤ Spec.totalWeight (fun v => (wt v).val) (D.map fun q => (q.1.val, q.2)) :=
      totalWeight_nonneg fun q hq => hw' q (hp'.mem_iff.1 (List.mem_append_right _ hq))
    linarith
  have hpre : ∀ n, |(((out.map fun q : Fl R × V => wt q.2).take n).foldl (· + ·) 0).val
      - Spec.totalWeight (fun v => (wt v).val) ((out.map fun q => (q.1.val, q.2)).take n)|
        ≤ ((1 + u) ^ (ps.length + 3) - 1) * Spec.totalWeight (fun v => (wt v).val) ps := by
    intro n
    have := prefix_err hu (out.map fun q => wt q.2) (by
      intro w hw'
      obtain ⟨q, hq', rfl⟩ := List.mem_map.1 hw'
      exact hwo q hq') n (N := ps.length + 3) (by rw [List.length_map]; omega)
    have e1 : (((out.map fun q => wt q.2).map Fl.val).take n).sum
        = Spec.totalWeight (fun v => (wt v).val) ((out.map fun q => (q.1.val, q.2)).take n) := by
      simp only [Spec.totalWeight, List.map_map, ← List.map_take]; rfl
    have e2 : ((out.map fun q => wt q.2).map Fl.val).sum
        = Spec.totalWeight (fun v => (wt v).val) (out.map fun q => (q.1.val, q.2)) := by
      simp only [Spec.totalWeight, List.map_map]; rfl
    rw [e1, e2] at this
    refine this.trans (mul_le_mul_of_nonneg_left hWle ?_)
    have : 1 ≤ (1 + u) ^ (ps.length + 3) := one_le_pow₀ (by linarith)
    linarith
  have hε0 : 0 ≤ ((1 + u) ^ (ps.length + 3) - 1) * Spec.totalWeight (fun v => (wt v).val) ps :=
    (abs_nonneg _).trans hthr
  have ht' := abs_le.1 hthr
  have hε' : ε = 2 * (((1 + u) ^ (ps.length + 3) - 1) * Spec.totalWeight (fun v => (wt v).val) ps) := by rw [hε]; ring
  unfold wtailQuantileResult
  rcases wtailLoop_cases (nanOrThrow hasNaN) (wtailThreshold side ((pushes h).map fun q => wt q.2) (Fl.ofK R p)) 0 0
      (out.map fun q => wt q.2) with ⟨n, hn, hlt, hge, he⟩ | ⟨hall, he⟩
  · rw [he, Res.val_bind]
    cases n with
    | zero =>
      refine ⟨fun x hx => by simp at hx, fun hεT _ => ?_⟩
      have h2 := Fl.le_iff.1 hge
      simp only [List.take_zero, List.foldl_nil, Fl.val_zero] at h2
      linarith [ht'.1]
    | succ n =>
      rw [List.length_map] at hn
      simp only [Nat.zero_add, Nat.succ_ne_zero, if_false, Nat.add_sub_cancel]
      rw [List.getElem?_map, List.getElem?_eq_getElem (by omega)]
      refine ⟨fun x hx => ?_, fun _ _ => ⟨out[n].1, rfl⟩⟩
      have hx' : out[n].1 = x := Res.val.inj hx
      subst hx'
      have hb := beyond_of_prefix (wt := fun v => (wt v).val) hw' hp' hD' hs' (n := n) (by simpa using hn)
      rw [List.getElem_map] at hb
      refine ⟨?_, ?_, ?_⟩
      · rw [hps]
        simp only [List.map_map, List.mem_map]
        exact ⟨out[n], hp.mem_iff.1 (List.mem_append_left _ (List.getElem_mem _)), rfl⟩
      · have h1 := (abs_le.1 (hpre (n + 1))).2
        have h2 := Fl.le_iff.1 hge
        linarith [hb.1, ht'.1]
      · have h1 := (abs_le.1 (hpre n)).1
        have h2 := Fl.lt_iff.1 (hlt n (by omega))
        linarith [hb.2, ht'.2]
  · rw [he]
    refine ⟨fun x hx => ?_, fun _ hv => ?_⟩
    · unfold nanOrThrow at hx
      cases hasNaN <;> simp at hx
    · have h1 := hv _ hv'
      have h2 := Fl.lt_iff.1 (hall _ le_rfl)
      have h3 := (abs_le.1 (hpre (out.map fun q : Fl R × V => wt q.2).length)).1
      have h4 : Spec.totalWeight (fun v => (wt v).val)
          ((out.map fun q => (q.1.val, q.2)).take (out.map fun q : Fl R × V => wt q.2).length)
          = ((out.map Prod.snd).map fun v => (wt v).val).sum := by
        rw [List.take_of_length_le (by simp)]
        simp only [Spec.totalWeight, List.map_map]
        rfl
      rw [h4] at h3
      linarith [ht'.2]

/-! ### Concrete cases -/

/-- In `double` the rank is in fact off by one: the 0.7 quantile of ten samples is the fourth greatest instead of the third,
since `1 - 0.7` is a little more than `0.3`, and the `0.07` quantile of a hundred samples the eighth least instead of the
seventh. -/
theorem C67_off_by_one :
    (tailN .right 10 (Fl.ofK double (7 / 10)) = .val 4 ∧ Spec.tailCount .right 10 (7 / 10 : ℚ) = 3) ∧
    tailN .left 100 (Fl.ofK double (7 / 100)) = .val 8 ∧ Spec.tailCount .left 100 (7 / 100 : ℚ) = 7 := by
  decide +kernel

/-- Ten samples 1, ..., 10, a right tail of size 6. -/
def tenSamples : List (Op (Fl double × Unit) Unit) :=
  [1, 2, 3, 4, 5, 6, 7, 8, 9, 10].map fun i : ℕ => Op.push (((i : ℕ) : Fl double), ())

example : tailQuantile HeapImpl.simple .right true 6 0 () tenSamples (Fl.ofK double (7 / 10))
    = .val ((7 : ℕ) : Fl double) := by
  decide +kernel

example : ∃ x n, tailQuantile HeapImpl.simple .right true 6 0 () tenSamples (Fl.ofK double (7 / 10)) = .val x ∧
    (n = 3 - 1 ∨ n = 3 ∨ n = 3 + 1) ∧
      (Spec.byExtremity .right ((pushes tenSamples).map Prod.fst))[n - 1]? = some x :=
  C67_quantile double_relErr HeapImpl.simple .right true (by norm_num) 0 () tenSamples
    (double_counts (n := 10) (by norm_num) _ le_rfl) (by norm_num [tenSamples, pushes]) (by norm_num) (by norm_num)
    (by decide +kernel) (by norm_num) (by norm_num [tenSamples, pushes])

/-- Samples 1, 2, 3 with weights 0.1, 0.2, 0.7. -/
def weightedSamples : List (Op (Fl double × Fl double) Unit) :=
  [(1, 1), (2, 2), (3, 7)].map fun q : ℕ × ℕ => Op.push (((q.1 : ℕ) : Fl double), Fl.ofK double ((q.2 : ℚ) / 10))

example : wtailQuantile HeapImpl.simple .left true id 3 0 0 weightedSamples (Fl.ofK double (1 / 5))
    = .val ((2 : ℕ) : Fl double) := by
  decide +kernel

/-- The bound `ε` is about `10⁻¹⁵`. -/
example : ∀ x : Fl double, wtailQuantile HeapImpl.simple .left true id 3 0 0 weightedSamples (Fl.ofK double (1 / 5)) = .val x →
    let ps := (pushes weightedSamples).map fun q => (q.1.val, q.2)
    Spec.weightStrictlyBeyond .left (fun v : Fl double => v.val) ps x.val
      < Spec.tailWeight .left (Spec.totalWeight (fun v : Fl double => v.val) ps) (1 / 5)
        + 2 * ((1 + 1 / 2 ^ 53) ^ (ps.length + 3) - 1) * Spec.totalWeight (fun v : Fl double => v.val) ps :=
  fun x hx => ((C67_weighted_quantile double_relErr HeapImpl.simple .left true (wt := id) (by norm_num) 0 0 weightedSamples
    (by decide +kernel) (by norm_num) (by norm_num) rfl rfl rfl).1 x hx).2.2

end Acc
