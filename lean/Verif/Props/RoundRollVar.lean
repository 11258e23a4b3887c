import Verif.Props.RoundRolling
import Verif.Props.RoundCov

/-!
# C95: rolling variances in floating point arithmetic

`Fl R` is a floating point type with rounding `R`; `u` bounds the relative error of one operation.
-/

set_option linter.unusedSectionVars false

namespace Acc

variable {K : Type} [Field K] [LinearOrder K] [IsStrictOrderedRing K] {R : Rounding K} {u : K}

/-! ## one step -/

/-- One rounding, in absolute terms. -/
theorem rd_abs (hu : R.RelErr u) {z t e Q : K} (ht : |t| ≤ Q) (h : |z - t| ≤ e) : |R.rd z - t| ≤ (1 + u) * e + u * Q := by
  have h0 := hu.nonneg
  have h1 := hu z
  have h2 : |z| ≤ e + Q := by
    have := abs_add_le (z - t) t
    rw [sub_add_cancel] at this
    linarith
  have h3 := abs_add_le (R.rd z - z) (z - t)
  rw [sub_add_sub_cancel] at h3
  have h4 : u * |z| ≤ u * (e + Q) := mul_le_mul_of_nonneg_left h2 h0
  linarith

/-- What one product of deviations of the recursion contributes: `B` bounds the samples, `E` the error of the means. -/
def devErr (u B E : K) : K := ((1 + u) ^ 3 - 1) * (2 * B + E) ^ 2 + E * (4 * B + E)

theorem devErr_nonneg {u B E : K} (hu : 0 ≤ u) (hB : 0 ≤ B) (hE : 0 ≤ E) : 0 ≤ devErr u B E := by
  have : 1 ≤ (1 + u) ^ 3 := one_le_pow₀ (by linarith)
  unfold devErr
  have h1 : 0 ≤ ((1 + u) ^ 3 - 1) * (2 * B + E) ^ 2 := mul_nonneg (by linarith) (sq_nonneg _)
  have h2 : 0 ≤ E * (4 * B + E) := mul_nonneg hE (by linarith)
  linarith

theorem dev_err (hu : R.RelErr u) {x m p : Fl R} {mu nu B E : K} (hx : |x.val| ≤ B) (hmu : |mu| ≤ B) (hnu : |nu| ≤ B)
    (hm : |m.val - mu| ≤ E) (hp : |p.val - nu| ≤ E) :
    |((x - m) * (x - p)).val - (x.val - mu) * (x.val - nu)| ≤ devErr u B E := by
  have h0 := hu.nonneg
  have hE : 0 ≤ E := (abs_nonneg _).trans hm
  have dev : ∀ {y nu : K}, |nu| ≤ B → |y - nu| ≤ E → |x.val - y| ≤ 2 * B + E := by
    intro y nu hnu hy
    have a1 := abs_sub (x.val) nu
    have a2 := abs_sub (x.val - nu) (y - nu)
    rw [sub_sub_sub_cancel_right] at a2
    linarith
  have d1 := dev hmu hm
  have d2 := dev hnu hp
  have r1 : |(x - m).val - (x.val - m.val)| ≤ u * (2 * B + E) := by
    rw [Fl.val_sub]
    exact (hu _).trans (mul_le_mul_of_nonneg_left d1 h0)
  have r2 : |(x - p).val - (x.val - p.val)| ≤ u * (2 * B + E) := by
    rw [Fl.val_sub]
    exact (hu _).trans (mul_le_mul_of_nonneg_left d2 h0)
  have hP : 0 ≤ 2 * B + E := (abs_nonneg _).trans d1
  have q1 := prod_err h0 d1 d2 r1 r2
  have q2 := hu.round (a := (2 * B + E) * (2 * B + E)) (t := (x.val - m.val) * (x.val - p.val)) (by
    rw [abs_mul]; exact mul_le_mul d1 d2 (abs_nonneg _) hP) q1
  have q3 : |(x.val - m.val) * (x.val - p.val) - (x.val - mu) * (x.val - nu)| ≤ E * (4 * B + E) := by
    rw [show (x.val - m.val) * (x.val - p.val) - (x.val - mu) * (x.val - nu)
      = -((m.val - mu) * (x.val - p.val)) - (x.val - mu) * (p.val - nu) by ring]
    refine (abs_sub _ _).trans ?_
    rw [abs_neg, abs_mul, abs_mul]
    have a1 : |m.val - mu| * |x.val - p.val| ≤ E * (2 * B + E) := mul_le_mul hm d2 (abs_nonneg _) hE
    have a0 : |x.val - mu| ≤ 2 * B := (abs_sub _ _).trans (by linarith)
    have a2 : |x.val - mu| * |p.val - nu| ≤ 2 * B * E :=
      mul_le_mul a0 hp (abs_nonneg _) ((abs_nonneg _).trans a0)
    linarith
  have h3 := abs_add_le (((x - m) * (x - p)).val - (x.val - m.val) * (x.val - p.val))
    ((x.val - m.val) * (x.val - p.val) - (x.val - mu) * (x.val - nu))
  rw [sub_add_sub_cancel] at h3
  rw [Fl.val_mul] at h3 ⊢
  refine h3.trans ((add_le_add q2 q3).trans (le_of_eq ?_))
  unfold devErr
  ring

/-! ## the exact recursion -/

theorem ssq_full {N : ℕ} (hN : 0 < N) {W : List K} {x f : K} (h : W.length = N) (hs : W ++ [x] = f :: nextWin N W x) :
    ssq W + (x - Spec.mean (nextWin N W x)) * (x - Spec.mean W)
      - (f - Spec.mean (nextWin N W x)) * (f - Spec.mean W) = ssq (nextWin N W x) := by
  have hW : W ≠ [] := by rintro rfl; simp at h; omega
  have hne := nextWin_ne_nil hN W x
  have hsum : W.sum + x = f + (nextWin N W x).sum := by
    have := congrArg List.sum hs; simpa using this
  have hsq : (W.map (· ^ 2)).sum + x ^ 2 = f ^ 2 + ((nextWin N W x).map (· ^ 2)).sum := by
    have := congrArg (fun l => (l.map (· ^ 2)).sum) hs; simpa using this
  have hl : (W.length : K) = ((nextWin N W x).length : K) := by
    rw [nextWin_length_full (x := x) h]
  rw [ssq_eq hW, ssq_eq hne, hl]
  have e1 := mean_mul_length hW
  have e2 := mean_mul_length hne
  rw [hl] at e1
  generalize Spec.mean W = a at *
  generalize Spec.mean (nextWin N W x) = b at *
  have e3 : (b - a) * ((nextWin N W x).length : K) = x - f := by
    rw [sub_mul, e1, e2]; linear_combination -hsum
  linear_combination hsq + (a + b) * e3

theorem ssq_fill (W : List K) (x : K) :
    ssq W + (x - Spec.mean (W ++ [x])) * (x - Spec.mean W) = ssq (W ++ [x]) := by
  by_cases hW : W = []
  · subst hW; simp [ssq, Spec.mean]
  · rw [ssq_eq hW, ssq_eq (by simp)]
    have e1 := mean_mul_length hW
    have e2 := mean_mul_length (xs := W ++ [x]) (by simp)
    simp only [List.length_append, List.length_singleton, List.sum_append, List.sum_singleton,
      List.map_append, List.map_cons, List.map_nil, Nat.cast_add, Nat.cast_one] at *
    generalize Spec.mean W = a at *
    generalize Spec.mean (W ++ [x]) = b at *
    linear_combination (a + b) * (e2 - e1)

theorem ssq_le {B : K} {W : List K} (h : ∀ x ∈ W, |x| ≤ B) : ssq W ≤ W.length * B ^ 2 := by
  have h1 : (W.map (· ^ 2)).sum ≤ W.length * B ^ 2 := by
    induction W with
    | nil => simp
    | cons x W ih =>
      have := ih fun y hy => h y (by simp [hy])
      have hx : x ^ 2 ≤ B ^ 2 := sq_le_sq' (abs_le.1 (h x (by simp))).1 (abs_le.1 (h x (by simp))).2
      simp only [List.map_cons, List.sum_cons, List.length_cons, Nat.cast_add, Nat.cast_one]
      linarith
  by_cases hW : W = []
  · subst hW; simp [ssq]
  · rw [ssq_eq hW]
    have : 0 ≤ (W.length : K) * Spec.mean W ^ 2 := by positivity
    linarith

theorem window_mean_le {B : K} (hB : 0 ≤ B) {W : List K} (h : ∀ x ∈ W, |x| ≤ B) : |Spec.mean W| ≤ B := by
  by_cases hW : W = []
  · subst hW; simpa [Spec.mean] using hB
  · have hn : (0 : K) < W.length := by exact_mod_cast List.length_pos_iff.2 hW
    unfold Spec.mean
    rw [abs_div, abs_of_pos hn, div_le_iff₀ hn]
    have : |W.sum| ≤ W.length * B := by
      clear hn hW
      induction W with
      | nil => simp
      | cons x W ih =>
        have := ih fun y hy => h y (by simp [hy])
        have h2 := abs_add_le x W.sum
        have h3 := h x (by simp)
        simp only [List.sum_cons, List.length_cons, Nat.cast_add, Nat.cast_one]
        linarith
    linarith

/-! ## the recursion -/

/-- The error of the sum of squares after `n` samples. -/
def ssErr (u B E : K) (N n : ℕ) : K :=
  (1 + u) ^ (2 * n) * (2 * n * devErr u B E) + ((1 + u) ^ (2 * n) - 1) * ((N + 4) * B ^ 2)

theorem ss_full_arith (hu : R.RelErr u) {s p1 p2 S q1 q2 d c Q : K} (h : |s - S| ≤ d) (h1 : |p1 - q1| ≤ c)
    (h2 : |p2 - q2| ≤ c) (hQ1 : |S + q1| ≤ Q) (hQ2 : |S + q1 - q2| ≤ Q) :
    |R.rd (R.rd (s + p1) - p2) - (S + q1 - q2)| ≤ (1 + u) ^ 2 * (d + 2 * c) + ((1 + u) ^ 2 - 1) * Q := by
  have h0 := hu.nonneg
  have hc : 0 ≤ c := (abs_nonneg _).trans h1
  have r1 := rd_abs hu (z := s + p1) (e := d + c) hQ1 (by
    rw [add_sub_add_comm]
    exact (abs_add_le _ _).trans (add_le_add h h1))
  have r2 := rd_abs hu (z := R.rd (s + p1) - p2) (e := (1 + u) * (d + c) + u * Q + c) hQ2 (by
    rw [sub_sub_sub_comm]
    exact (abs_sub _ _).trans (add_le_add r1 h2))
  refine r2.trans ?_
  have : 0 ≤ (1 + u) * u * c := by positivity
  nlinarith

theorem ssErr_step {B E : K} (hu : 0 ≤ u) (hB : 0 ≤ B) (hE : 0 ≤ E) (N n : ℕ) :
    (1 + u) ^ 2 * (ssErr u B E N n + 2 * devErr u B E) + ((1 + u) ^ 2 - 1) * ((N + 4) * B ^ 2) ≤ ssErr u B E N (n + 1) := by
  have hc := devErr_nonneg hu hB hE
  have hg : 1 ≤ (1 + u) ^ (2 * n) := one_le_pow₀ (by linarith)
  unfold ssErr
  rw [mul_add 2 n 1, pow_add, mul_one]
  push_cast
  generalize (1 + u) ^ (2 * n) = g at *
  generalize devErr u B E = c at *
  generalize ((N : K) + 4) * B ^ 2 = Q at *
  have h2 : 0 ≤ (1 + u) ^ 2 * (2 * c) * (g - 1) :=
    mul_nonneg (by positivity) (by linarith)
  nlinarith

theorem preventUnderflow_err {z : Fl R} {S d : K} (hS : 0 ≤ S) (h : |z.val - S| ≤ d) :
    |(preventUnderflow z).val - S| ≤ d := by
  unfold preventUnderflow
  by_cases hz : z < 0
  · rw [if_pos hz, Fl.val_zero]
    have hz' : z.val < 0 := hz
    rw [abs_le] at h ⊢
    constructor <;> linarith
  · rwa [if_neg hz]

/-- `xs` is a stream for which `E` bounds the error of `rolling_mean` at every moment. -/
def MeansWithin (kind : RollMeanKind) (N : ℕ) (E : K) (xs : List (Fl R)) : Prop :=
  ∀ l, l <+: xs → l ≠ [] → ∃ m : Fl R, (rollRun kind N 0 l).mean kind = .val m ∧
    |m.val - ((l.drop (l.length - N)).map Fl.val).sum / (min l.length N : ℕ)| ≤ E

theorem rollRun_prevMean {X : Type} [Arith X] [LinearOrder X] (kind : RollMeanKind) (N : ℕ) (x0 : X) (l : List X) (x : X) :
    (rollRun kind N x0 (l ++ [x])).var.prevMean = (rollRun kind N x0 (l ++ [x])).mean kind := by
  rw [rollRun_push_last]
  cases kind <;> rfl

theorem sumSquares_err (hu : R.RelErr u) (kind : RollMeanKind) {N : ℕ} (hN0 : 0 < N) {B E : K} (hE : 0 ≤ E)
    (xs : List (Fl R)) (hB : ∀ x ∈ xs, |x.val| ≤ B) (hB0 : 0 ≤ B) (hm : MeansWithin kind N E xs) :
    ∃ p s : Fl R, (rollRun kind N 0 xs).var.prevMean = .val p ∧ (rollRun kind N 0 xs).var.ss = .val s ∧
      |p.val - Spec.mean ((Spec.lastN N xs).map Fl.val)| ≤ E ∧
      |s.val - ssq ((Spec.lastN N xs).map Fl.val)| ≤ ssErr u B E N xs.length := by
  have h0 := hu.nonneg
  have one_ne : (1 : Fl R) ≠ 0 := by
    intro e
    rw [Fl.eq_zero_iff] at e
    exact one_ne_zero e
  induction xs using List.reverseRecOn with
  | nil =>
    have e : fdiv (0 : Fl R) 1 = .val (0 / 1) := by simp [fdiv, one_ne]
    have v : (0 / 1 : Fl R).val = 0 := by rw [Fl.val_div, Fl.val_zero, zero_div, R.zero]
    refine ⟨0 / 1, 0 / 1, e, e, ?_, ?_⟩
    · rw [v]; simpa [Spec.lastN, Spec.mean] using hE
    · rw [v]; simp [Spec.lastN, ssq, ssErr]
  | append_singleton l x ih =>
    obtain ⟨p, s, ip, is, ep, es⟩ := ih (fun y hy => hB y (by simp [hy]))
      (fun l' hl' hne => hm l' (hl'.trans (List.prefix_append _ _)) hne)
    obtain ⟨m, im, em⟩ := hm (l ++ [x]) List.prefix_rfl (by simp)
    have em' : |m.val - Spec.mean ((Spec.lastN N (l ++ [x])).map Fl.val)| ≤ E := by
      rw [Spec.mean, List.length_map, lastN_length]
      exact em
    have hpm := rollRun_prevMean kind N (0 : Fl R) l x
    rw [im] at hpm
    have hss : (rollRun kind N (0 : Fl R) (l ++ [x])).var.ss = (RollVar.step (nextRing N (Spec.lastN N l) x) (.val m)
        ⟨.val p, .val s⟩ x).ss := by
      rw [← im, ← ip, ← is, ← rollRun_window_snoc kind N 0, rollRun_push_last]
      cases kind <;> rfl
    have hmem : ∀ y ∈ (Spec.lastN N l).map Fl.val, |y| ≤ B := by
      intro y hy
      obtain ⟨z, hz, rfl⟩ := List.mem_map.1 hy
      exact hB z (by simp [List.mem_of_mem_drop hz])
    have hmem' : ∀ y ∈ (Spec.lastN N (l ++ [x])).map Fl.val, |y| ≤ B := by
      intro y hy
      obtain ⟨z, hz, rfl⟩ := List.mem_map.1 hy
      exact hB z (List.mem_of_mem_drop hz)
    have hx : |x.val| ≤ B := hB x (by simp)
    have hmu := window_mean_le hB0 hmem
    have hmu' := window_mean_le hB0 hmem'
    have hS := ssq_nonneg ((Spec.lastN N l).map Fl.val)
    have hS' := ssq_nonneg ((Spec.lastN N (l ++ [x])).map Fl.val)
    have hB2 : 0 ≤ B ^ 2 := sq_nonneg B
    have lenle : ∀ q : List (Fl R), (((Spec.lastN N q).map Fl.val).length : K) * B ^ 2 ≤ N * B ^ 2 := by
      intro q
      refine mul_le_mul_of_nonneg_right ?_ hB2
      rw [List.length_map, lastN_length]
      exact_mod_cast min_le_right _ _
    have hSN := (ssq_le hmem).trans (lenle _)
    have hSN' := (ssq_le hmem').trans (lenle _)
    have hq : |(x.val - Spec.mean ((Spec.lastN N (l ++ [x])).map Fl.val)) * (x.val - Spec.mean ((Spec.lastN N l).map Fl.val))|
        ≤ 4 * B ^ 2 := by
      rw [abs_mul]
      have a1 := (abs_sub x.val (Spec.mean ((Spec.lastN N (l ++ [x])).map Fl.val)))
      have a2 := (abs_sub x.val (Spec.mean ((Spec.lastN N l).map Fl.val)))
      refine (mul_le_mul (a1.trans (by linarith : _ ≤ 2 * B)) (a2.trans (by linarith : _ ≤ 2 * B)) (abs_nonneg _)
        (by linarith)).trans (le_of_eq (by ring))
    have hQ1 : |ssq ((Spec.lastN N l).map Fl.val) + (x.val - Spec.mean ((Spec.lastN N (l ++ [x])).map Fl.val))
        * (x.val - Spec.mean ((Spec.lastN N l).map Fl.val))| ≤ (N + 4) * B ^ 2 := by
      refine (abs_add_le _ _).trans ?_
      rw [abs_of_nonneg hS]
      linarith
    have hQ2 : |ssq ((Spec.lastN N (l ++ [x])).map Fl.val)| ≤ (N + 4) * B ^ 2 := by
      rw [abs_of_nonneg hS']
      linarith
    have p1 := dev_err hu hx hmu' hmu em' ep
    have hstep := ssErr_step h0 hB0 hE N l.length
    rw [List.length_append, List.length_singleton]
    by_cases hN : (Spec.lastN N l).length = N
    · obtain ⟨f, hf, hsplit⟩ := full_split (x := x) hN
      have hwin : Spec.lastN N (l ++ [x]) = nextWin N (Spec.lastN N l) x := by
        rw [lastN_snoc, nextWin]
      have hfm : f ∈ Spec.lastN N l ++ [x] := by rw [hsplit]; simp
      have hfB : |f.val| ≤ B := by
        rcases List.mem_append.1 hfm with h | h
        · exact hB f (by simp [List.mem_of_mem_drop h])
        · rw [List.mem_singleton.1 h]; exact hx
      have p2 := dev_err hu hfB hmu' hmu em' ep
      refine ⟨m, preventUnderflow (s + (x - m) * (x - p) - (f - m) * (f - p)), hpm, ?_, em', ?_⟩
      · rw [hss]
        simp only [RollVar.step, Res.val_bind, nextRing_full, hN, decide_true, if_true, hf, Res.pure_eq]
      · have hmap : (Spec.lastN N (l ++ [x])).map Fl.val = nextWin N ((Spec.lastN N l).map Fl.val) x.val := by
          rw [hwin]; simp only [nextWin, List.length_map]
          split_ifs
          all_goals simp
        have hrec := ssq_full hN0 (W := (Spec.lastN N l).map Fl.val) (x := x.val) (f := f.val) (by rw [List.length_map]; exact hN) (by
          have := congrArg (fun q => q.map Fl.val) hsplit
          rw [← hmap, hwin]
          simpa using this)
        rw [← hmap] at hrec
        refine preventUnderflow_err hS' ?_
        rw [← hrec] at hQ2 ⊢
        rw [Fl.val_sub, Fl.val_add]
        exact (ss_full_arith hu es p1 p2 hQ1 hQ2).trans hstep
    · have hwin : Spec.lastN N (l ++ [x]) = Spec.lastN N l ++ [x] := by
        rw [lastN_snoc, if_neg hN]
      refine ⟨m, s + (x - m) * (x - p), hpm, ?_, em', ?_⟩
      · rw [hss]
        simp only [RollVar.step, Res.val_bind, nextRing_full, hN, decide_false, Bool.false_eq_true, if_false, Res.pure_eq]
      · have hrec := ssq_fill ((Spec.lastN N l).map Fl.val) x.val
        rw [show (Spec.lastN N l).map Fl.val ++ [x.val] = (Spec.lastN N (l ++ [x])).map Fl.val by rw [hwin]; simp] at hrec
        rw [← hrec, Fl.val_add]
        have r1 := rd_abs hu (z := s.val + ((x - m) * (x - p)).val) (e := ssErr u B E N l.length + devErr u B E) hQ1 (by
          rw [add_sub_add_comm]
          exact (abs_add_le _ _).trans (add_le_add es p1))
        refine r1.trans (le_trans ?_ hstep)
        have hc := devErr_nonneg h0 hB0 hE
        have hs0 : 0 ≤ ssErr u B E N l.length := (abs_nonneg _).trans es
        have hQ0 : 0 ≤ ((N : K) + 4) * B ^ 2 := by positivity
        generalize ssErr u B E N l.length = d at *
        generalize devErr u B E = c at *
        generalize ((N : K) + 4) * B ^ 2 = Q at *
        have k1 : 0 ≤ u * (1 + u) * (d + c) := by positivity
        have k2 : 0 ≤ u * (1 + u) * Q := by positivity
        have k3 : 0 ≤ (1 + u) ^ 2 * c := by positivity
        nlinarith

/-- **C95** The immediate `rolling_variance` over any provider of the mean: if `B` bounds the samples and `E` the error of the
mean at every moment, the result differs from the sample variance of the window by at most
`((1+u)²ⁿ⁺¹·2n·c + ((1+u)²ⁿ⁺¹ - 1)(N+4)B²) / (w-1)` with `c = ((1+u)³-1)(2B+E)² + E(4B+E)`, `n` the number of samples pushed and
`w` that of the window. -/
theorem C95_immediate_over (hu : R.RelErr u) (kind : RollMeanKind) {N : ℕ} {B E : K} (hE : 0 ≤ E)
    (xs : List (Fl R)) (hB : ∀ x ∈ xs, |x.val| ≤ B) (hm : MeansWithin kind N E xs) (h2 : 2 ≤ min xs.length N)
    (hc : R.Counts (min xs.length N)) :
    ∃ v : Fl R, (rollRun kind N 0 xs).var.result (rollRun kind N 0 xs).b = .val v ∧
      |v.val - Spec.sampleVariance ((xs.drop (xs.length - N)).map Fl.val)|
        ≤ ((1 + u) ^ (2 * xs.length + 1) * (2 * xs.length * (((1 + u) ^ 3 - 1) * (2 * B + E) ^ 2 + E * (4 * B + E)))
            + ((1 + u) ^ (2 * xs.length + 1) - 1) * ((N + 4) * B ^ 2)) / ((min xs.length N : ℕ) - 1) := by
  have h0 := hu.nonneg
  have hN0 : 0 < N := by omega
  have hB0 : 0 ≤ B := by
    cases xs with
    | nil => simp at h2
    | cons x t => exact (abs_nonneg _).trans (hB x (by simp))
  obtain ⟨p, s, -, hs, -, he⟩ := sumSquares_err hu kind hN0 hE xs hB hB0 hm
  have hw : (2 : K) ≤ ((min xs.length N : ℕ) : K) := by exact_mod_cast h2
  have hd : ((rollingCount (rollRun kind N (0 : Fl R) xs).b : Fl R) - 1).val = ((min xs.length N : ℕ) : K) - 1 := by
    rw [rollRun_count, Fl.val_sub, Fl.val_natCast, hc _ le_rfl, Fl.val_one]
    have := hc (min xs.length N - 1) (by omega)
    rwa [Nat.cast_sub (by omega), Nat.cast_one] at this
  have hne : ((rollingCount (rollRun kind N (0 : Fl R) xs).b : Fl R) - 1) ≠ 0 := by
    intro e
    rw [Fl.eq_zero_iff, hd] at e
    linarith
  refine ⟨s / ((rollingCount (rollRun kind N (0 : Fl R) xs).b : Fl R) - 1), ?_, ?_⟩
  · have hcnt : ¬ rollingCount (rollRun kind N (0 : Fl R) xs).b < 2 := by rw [rollRun_count]; omega
    rw [RollVar.result, if_neg hcnt, hs, Res.val_bind]
    simp [fdiv, hne]
  · have hvar : Spec.sampleVariance ((xs.drop (xs.length - N)).map Fl.val)
        = ssq ((Spec.lastN N xs).map Fl.val) / (((min xs.length N : ℕ) : K) - 1) := by
      have hl := lastN_length N xs
      unfold Spec.sampleVariance ssq
      unfold Spec.lastN at hl ⊢
      rw [List.length_map, hl]
    rw [Fl.val_div, hd, hvar]
    have hmem : ∀ y ∈ (Spec.lastN N xs).map Fl.val, |y| ≤ B := by
      intro y hy
      obtain ⟨z, hz, rfl⟩ := List.mem_map.1 hy
      exact hB z (List.mem_of_mem_drop hz)
    have hS := ssq_nonneg ((Spec.lastN N xs).map Fl.val)
    have hS2 : ssq ((Spec.lastN N xs).map Fl.val) ≤ (N + 4) * B ^ 2 := by
      refine (ssq_le hmem).trans (mul_le_mul_of_nonneg_right ?_ (sq_nonneg B))
      rw [List.length_map, lastN_length]
      have : ((min xs.length N : ℕ) : K) ≤ N := by exact_mod_cast min_le_right _ _
      linarith
    have hw1 : (0 : K) < ((min xs.length N : ℕ) : K) - 1 := by linarith
    have hpow : (1 + u) ^ (2 * xs.length + 1) = (1 + u) ^ (2 * xs.length) * (1 + u) := pow_succ _ _
    rw [hpow]
    unfold ssErr devErr at he
    generalize ((min xs.length N : ℕ) : K) - 1 = w at *
    generalize (1 + u) ^ (2 * xs.length) = g at *
    generalize ((N : K) + 4) * B ^ 2 = Q at *
    generalize ssq ((Spec.lastN N xs).map Fl.val) = S at *
    have hq := div_le_div_of_nonneg_right he hw1.le
    rw [show |s.val - S| / w = |s.val / w - S / w| by rw [← sub_div, abs_div, abs_of_pos hw1]] at hq
    have r := rd_abs hu (z := s.val / w) (t := S / w) (Q := Q / w) (by
      rw [abs_div, abs_of_pos hw1, abs_of_nonneg hS]; exact div_le_div_of_nonneg_right hS2 hw1.le) hq
    refine r.trans (le_of_eq ?_)
    field_simp
    ring

/-! ## the two providers of the mean -/

theorem abs_sum_le_card {B : K} {l : List (Fl R)} (h : ∀ x ∈ l, |x.val| ≤ B) :
    (l.map fun x => |x.val|).sum ≤ l.length * B := by
  induction l with
  | nil => simp
  | cons x l ih =>
    have := ih fun y hy => h y (by simp [hy])
    have h3 := h x (by simp)
    simp only [List.map_cons, List.sum_cons, List.length_cons, Nat.cast_add, Nat.cast_one]
    linarith

theorem div_window_le {k n N : ℕ} (hk : 0 < k) (hkn : k ≤ n) (hN : 0 < N) :
    (k : K) / (min k N : ℕ) ≤ max 1 ((n : K) / N) := by
  have hN' : (0 : K) < N := by exact_mod_cast hN
  have hk' : (0 : K) < k := by exact_mod_cast hk
  rcases le_total k N with h | h
  · rw [min_eq_left h, div_self hk'.ne']
    exact le_max_left _ _
  · rw [min_eq_right h]
    refine le_trans ?_ (le_max_right _ _)
    exact div_le_div_of_nonneg_right (by exact_mod_cast hkn) hN'.le

theorem lazy_meansWithin (hu : R.RelErr u) {N : ℕ} (hN0 : 0 < N) {B : K} (xs : List (Fl R)) (hB : ∀ x ∈ xs, |x.val| ≤ B)
    (hB0 : 0 ≤ B) (hc : R.Counts (min xs.length N)) :
    MeansWithin .lazy N (((1 + u) ^ (2 * xs.length + 1) - 1) * (B * max 1 ((xs.length : K) / N))) xs := by
  intro l hl hne
  have h0 := hu.nonneg
  have hlen := hl.length_le
  obtain ⟨m, hm, he⟩ := C92_lazy_mean hu hN0 l hne (hc _ (by omega))
  have hk : 0 < l.length := List.length_pos_iff.2 hne
  refine ⟨m, hm, he.trans ?_⟩
  have hs := abs_sum_le_card (B := B) (l := l) fun x hx => hB x (hl.subset hx)
  have hw : (0 : K) < (min l.length N : ℕ) := by exact_mod_cast (by omega : 0 < min l.length N)
  have hr := div_window_le (K := K) hk hlen hN0
  have hp : (1 + u) ^ (2 * l.length + 1) ≤ (1 + u) ^ (2 * xs.length + 1) := pow_le_pow_right₀ (by linarith) (by omega)
  have hp1 : 1 ≤ (1 + u) ^ (2 * l.length + 1) := one_le_pow₀ (by linarith)
  refine mul_le_mul (by linarith) ?_ (div_nonneg (absSum_nonneg Fl.val l) hw.le) (by linarith)
  refine (div_le_div_of_nonneg_right hs hw.le).trans ?_
  rw [mul_comm, mul_div_assoc]
  exact mul_le_mul_of_nonneg_left hr hB0

theorem immediate_meansWithin (hu : R.RelErr u) {N : ℕ} (hN0 : 0 < N) {B : K} (xs : List (Fl R))
    (hB : ∀ x ∈ xs, |x.val| ≤ B) (hB0 : 0 ≤ B) (hc : R.Counts (min xs.length N)) :
    MeansWithin .immediate N (((1 + u) ^ (3 * xs.length) - 1) * (2 * B * max 1 ((xs.length : K) / N))) xs := by
  intro l hl hne
  have h0 := hu.nonneg
  have hlen := hl.length_le
  obtain ⟨m, hm, he⟩ := C92_immediate_mean hu hN0 l hne fun k hk => hc k (by omega)
  have hk : 0 < l.length := List.length_pos_iff.2 hne
  refine ⟨m, hm, he.trans ?_⟩
  have hs := abs_sum_le_card (B := B) (l := l) fun x hx => hB x (hl.subset hx)
  have hs2 : ((l.take (l.length - N)).map fun x => |x.val|).sum ≤ (l.map fun x => |x.val|).sum := by
    have h1 : (l.map fun x => |x.val|).sum = ((l.take (l.length - N)).map fun x => |x.val|).sum
        + ((l.drop (l.length - N)).map fun x => |x.val|).sum := by
      rw [← List.sum_append, ← List.map_append, List.take_append_drop]
    have := absSum_nonneg Fl.val (l.drop (l.length - N))
    linarith
  have hs3 := absSum_nonneg Fl.val (l.take (l.length - N))
  have hs4 := absSum_nonneg Fl.val l
  have hw : (0 : K) < (min l.length N : ℕ) := by exact_mod_cast (by omega : 0 < min l.length N)
  have hr := div_window_le (K := K) hk hlen hN0
  have hp : (1 + u) ^ (3 * l.length) ≤ (1 + u) ^ (3 * xs.length) := pow_le_pow_right₀ (by linarith) (by omega)
  have hp1 : 1 ≤ (1 + u) ^ (3 * l.length) := one_le_pow₀ (by linarith)
  refine mul_le_mul (by linarith) ?_ (div_nonneg (by linarith) hw.le) (by linarith)
  refine (div_le_div_of_nonneg_right (by linarith : _ ≤ (l.length : K) * (2 * B)) hw.le).trans ?_
  rw [mul_comm, mul_div_assoc]
  exact mul_le_mul_of_nonneg_left hr (by linarith)

/-- **C95** The immediate `rolling_variance` with its own (immediate) mean. -/
theorem C95_immediate (hu : R.RelErr u) {N : ℕ} {B : K} (xs : List (Fl R)) (hB : ∀ x ∈ xs, |x.val| ≤ B)
    (h2 : 2 ≤ min xs.length N) (hc : R.Counts (min xs.length N)) :
    ∃ v : Fl R, (rollRun .immediate N 0 xs).var.result (rollRun .immediate N 0 xs).b = .val v ∧
      let E := ((1 + u) ^ (3 * xs.length) - 1) * (2 * B * max 1 ((xs.length : K) / N))
      |v.val - Spec.sampleVariance ((xs.drop (xs.length - N)).map Fl.val)|
        ≤ ((1 + u) ^ (2 * xs.length + 1) * (2 * xs.length * (((1 + u) ^ 3 - 1) * (2 * B + E) ^ 2 + E * (4 * B + E)))
            + ((1 + u) ^ (2 * xs.length + 1) - 1) * ((N + 4) * B ^ 2)) / ((min xs.length N : ℕ) - 1) := by
  have h0 := hu.nonneg
  have hB0 : 0 ≤ B := by
    cases xs with
    | nil => simp at h2
    | cons x t => exact (abs_nonneg _).trans (hB x (by simp))
  have hp1 : 1 ≤ (1 + u) ^ (3 * xs.length) := one_le_pow₀ (by linarith)
  have hmx : (0 : K) ≤ max 1 ((xs.length : K) / N) := zero_le_one.trans (le_max_left _ _)
  exact C95_immediate_over hu .immediate (mul_nonneg (by linarith) (by positivity)) xs hB
    (immediate_meansWithin hu (by omega) xs hB hB0 hc) h2 hc

/-- **C95** The immediate `rolling_variance` in a set whose `rolling_mean` is the lazy one. -/
theorem C95_immediate_lazy_mean (hu : R.RelErr u) {N : ℕ} {B : K} (xs : List (Fl R)) (hB : ∀ x ∈ xs, |x.val| ≤ B)
    (h2 : 2 ≤ min xs.length N) (hc : R.Counts (min xs.length N)) :
    ∃ v : Fl R, (rollRun .lazy N 0 xs).var.result (rollRun .lazy N 0 xs).b = .val v ∧
      let E := ((1 + u) ^ (2 * xs.length + 1) - 1) * (B * max 1 ((xs.length : K) / N))
      |v.val - Spec.sampleVariance ((xs.drop (xs.length - N)).map Fl.val)|
        ≤ ((1 + u) ^ (2 * xs.length + 1) * (2 * xs.length * (((1 + u) ^ 3 - 1) * (2 * B + E) ^ 2 + E * (4 * B + E)))
            + ((1 + u) ^ (2 * xs.length + 1) - 1) * ((N + 4) * B ^ 2)) / ((min xs.length N : ℕ) - 1) := by
  have h0 := hu.nonneg
  have hB0 : 0 ≤ B := by
    cases xs with
    | nil => simp at h2
    | cons x t => exact (abs_nonneg _).trans (hB x (by simp))
  have hp1 : 1 ≤ (1 + u) ^ (2 * xs.length + 1) := one_le_pow₀ (by linarith)
  have hmx : (0 : K) ≤ max 1 ((xs.length : K) / N) := zero_le_one.trans (le_max_left _ _)
  exact C95_immediate_over hu .lazy (mul_nonneg (by linarith) (by positivity)) xs hB
    (lazy_meansWithin hu (by omega) xs hB hB0 hc) h2 hc

/-! ## the lazy variant -/

theorem lazyDiff_err (hu : R.RelErr u) {m2 m : Fl R} {E2 mu A A2 G1 G2 G : K} (h2 : |m2.val - E2| ≤ (G2 - 1) * A2)
    (h1 : |m.val - mu| ≤ (G1 - 1) * A) (hmu : |mu| ≤ A) (hE2 : |E2| ≤ A2) (hA : A * A ≤ A2) (hG1 : 1 ≤ G1) (hG2 : G2 ≤ G)
    (hG : (1 + u) * G1 ^ 2 ≤ G) :
    |(m2 - m * m).val - (E2 - mu * mu)| ≤ ((1 + u) * G - 1) * (2 * A2) := by
  have h0 := hu.nonneg
  have hA0 : 0 ≤ A := (abs_nonneg mu).trans hmu
  have hE : 0 ≤ A2 := (mul_self_nonneg A).trans hA
  have hmm : |mu * mu| ≤ A * A := by
    rw [abs_mul]
    exact mul_le_mul hmu hmu (abs_nonneg _) hA0
  have s1 := sq_err (sub_nonneg.2 hG1) hmu h1
  rw [add_sub_cancel] at s1
  have s2 := hu.round hmm s1
  rw [add_sub_cancel] at s2
  have hG1' : 1 ≤ (1 + u) * G1 ^ 2 := by nlinarith [one_le_pow₀ (n := 2) hG1]
  have s3 : |R.rd (m.val * m.val) - mu * mu| ≤ (G - 1) * A2 := by
    refine s2.trans ((mul_le_mul_of_nonneg_left hA (by linarith)).trans ?_)
    exact mul_le_mul_of_nonneg_right (by linarith) hE
  have s4 : |m2.val - E2| ≤ (G - 1) * A2 := h2.trans (mul_le_mul_of_nonneg_right (by linarith) hE)
  have s5 := hu.round (z := m2.val - R.rd (m.val * m.val)) (t := E2 - mu * mu) (d := G - 1) (a := 2 * A2) (by
      refine (abs_sub _ _).trans ?_
      linarith) (by
      rw [sub_sub_sub_comm]
      refine (abs_sub _ _).trans ?_
      linarith)
  rw [add_sub_cancel] at s5
  exact s5

theorem sq_sum_le_card {B : K} {l : List (Fl R)} (h : ∀ x ∈ l, |x.val| ≤ B) :
    (l.map fun x => |x.val ^ 2|).sum ≤ l.length * B ^ 2 := by
  induction l with
  | nil => simp
  | cons x l ih =>
    have := ih fun y hy => h y (by simp [hy])
    have h3 := h x (by simp)
    have h4 : |x.val ^ 2| ≤ B ^ 2 := by
      rw [abs_pow]
      exact pow_le_pow_left₀ (abs_nonneg _) h3 2
    simp only [List.map_cons, List.sum_cons, List.length_cons, Nat.cast_add, Nat.cast_one]
    linarith

/-- **C95** The lazy `rolling_variance`: relative to `B²` and to the square of the ratio of everything pushed to the window. -/
theorem C95_lazy (hu : R.RelErr u) {N : ℕ} {B : K} (xs : List (Fl R)) (hB : ∀ x ∈ xs, |x.val| ≤ B)
    (h2 : 2 ≤ min xs.length N) (hc : R.Counts (min xs.length N)) :
    ∃ v : Fl R, lazyRollingVarianceResult (rollRun .lazy N 0 xs).b
        (rollingMomentResult (rollRun .lazy N 0 xs).b ((rollRun .lazy N 0 xs).moment 2))
        ((rollRun .lazy N 0 xs).mean .lazy) = .val v ∧
      |v.val - Spec.sampleVariance ((xs.drop (xs.length - N)).map Fl.val)|
        ≤ ((1 + u) ^ (4 * xs.length + 6) - 1) * (2 * (B * max 1 ((xs.length : K) / N)) ^ 2)
            * ((min xs.length N : ℕ) / ((min xs.length N : ℕ) - 1)) := by
  have h0 := hu.nonneg
  have hN0 : 0 < N := by omega
  have hne : xs ≠ [] := by rintro rfl; simp at h2
  have hB0 : 0 ≤ B := by
    cases xs with
    | nil => exact absurd rfl hne
    | cons x t => exact (abs_nonneg _).trans (hB x (by simp))
  obtain ⟨m, hm, he⟩ := lazy_meansWithin hu hN0 xs hB hB0 hc xs List.prefix_rfl hne
  obtain ⟨m2, hm2, he2⟩ := C92_moment hu .lazy (M := 2) (by norm_num) hN0 xs hne (hc _ le_rfl)
  have hw : (2 : K) ≤ ((min xs.length N : ℕ) : K) := by exact_mod_cast h2
  have hw0 : (0 : K) < ((min xs.length N : ℕ) : K) := by linarith
  have hwn : R.rd ((min xs.length N : ℕ) : K) = ((min xs.length N : ℕ) : K) := hc _ le_rfl
  have hd : (((min xs.length N : ℕ) : Fl R) - 1).val = ((min xs.length N : ℕ) : K) - 1 := by
    rw [Fl.val_sub, Fl.val_natCast, hwn, Fl.val_one]
    have := hc (min xs.length N - 1) (by omega)
    rwa [Nat.cast_sub (by omega), Nat.cast_one] at this
  have hdne : (((min xs.length N : ℕ) : Fl R) - 1) ≠ 0 := by
    intro e
    rw [Fl.eq_zero_iff, hd] at e
    linarith
  have hmem : ∀ y ∈ (Spec.lastN N xs).map Fl.val, |y| ≤ B := by
    intro y hy
    obtain ⟨z, hz, rfl⟩ := List.mem_map.1 hy
    exact hB z (List.mem_of_mem_drop hz)
  have hlen : (((Spec.lastN N xs).map Fl.val).length : K) = ((min xs.length N : ℕ) : K) := by
    rw [List.length_map, lastN_length]
  have hWne : (Spec.lastN N xs).map Fl.val ≠ [] := by
    intro e
    rw [e] at hlen
    simp only [List.length_nil, Nat.cast_zero] at hlen
    linarith
  have hmu := window_mean_le hB0 hmem
  have hmueq : Spec.mean ((Spec.lastN N xs).map Fl.val)
      = ((xs.drop (xs.length - N)).map Fl.val).sum / (min xs.length N : ℕ) := by
    rw [Spec.mean, hlen]; rfl
  have hvar : Spec.sampleVariance ((xs.drop (xs.length - N)).map Fl.val)
      = ((min xs.length N : ℕ) : K) * (((xs.drop (xs.length - N)).map fun x => x.val ^ 2).sum / (min xs.length N : ℕ)
          - Spec.mean ((Spec.lastN N xs).map Fl.val) * Spec.mean ((Spec.lastN N xs).map Fl.val))
        / (((min xs.length N : ℕ) : K) - 1) := by
    have e := ssq_eq hWne
    rw [List.map_map, hlen] at e
    have e' : Spec.sampleVariance ((xs.drop (xs.length - N)).map Fl.val)
        = ssq ((Spec.lastN N xs).map Fl.val) / (((min xs.length N : ℕ) : K) - 1) := by
      rw [← hlen]; rfl
    rw [e', e]
    congr 1
    unfold Spec.lastN
    simp only [Function.comp_def]
    field_simp
  have hr := div_window_le (K := K) (List.length_pos_iff.2 hne) le_rfl hN0
  have hr1 : (1 : K) ≤ max 1 ((xs.length : K) / N) := le_max_left _ _
  have hsq2 : ((xs.drop (xs.length - N)).map fun x => x.val ^ 2).sum / (min xs.length N : ℕ) ≤ B ^ 2 := by
    rw [div_le_iff₀ hw0]
    have := sq_sum_le_card (B := B) (l := xs.drop (xs.length - N)) fun x hx => hB x (List.mem_of_mem_drop hx)
    have hl : (((xs.drop (xs.length - N)).length : ℕ) : K) = ((min xs.length N : ℕ) : K) := by
      have := lastN_length N xs
      unfold Spec.lastN at this
      rw [this]
    rw [hl] at this
    have e : ((xs.drop (xs.length - N)).map fun x => |x.val ^ 2|) = (xs.drop (xs.length - N)).map fun x => x.val ^ 2 :=
      List.map_congr_left fun x _ => abs_of_nonneg (sq_nonneg _)
    rw [e] at this
    linarith
  have hsq0 : 0 ≤ ((xs.drop (xs.length - N)).map fun x => x.val ^ 2).sum / ((min xs.length N : ℕ) : K) := by
    refine div_nonneg (List.sum_nonneg ?_) hw0.le
    intro y hy
    obtain ⟨z, _, rfl⟩ := List.mem_map.1 hy
    exact sq_nonneg _
  have htot : (xs.map fun x => |x.val ^ 2|).sum / ((min xs.length N : ℕ) : K) ≤ B ^ 2 * max 1 ((xs.length : K) / N) := by
    have := sq_sum_le_card (B := B) hB
    refine (div_le_div_of_nonneg_right this hw0.le).trans ?_
    rw [mul_comm, mul_div_assoc]
    exact mul_le_mul_of_nonneg_left hr (sq_nonneg B)
  rw [hvar]
  rw [← hmueq] at he
  have hp : 1 ≤ (1 + u) ^ (2 * xs.length + 2) := one_le_pow₀ (by linarith)
  have hp1 : 1 ≤ (1 + u) ^ (2 * xs.length + 1) := one_le_pow₀ (by linarith)
  have he2' := he2.trans (mul_le_mul_of_nonneg_left htot (by linarith))
  have hG2 : (1 + u) ^ (2 * xs.length + 2) ≤ (1 + u) ^ (4 * xs.length + 3) := pow_le_pow_right₀ (by linarith) (by omega)
  have hG : (1 + u) * ((1 + u) ^ (2 * xs.length + 1)) ^ 2 ≤ (1 + u) ^ (4 * xs.length + 3) := by
    rw [← pow_mul, ← pow_succ']
    exact pow_le_pow_right₀ (by linarith) (by omega)
  have hcnt : rollingCount (rollRun .lazy N (0 : Fl R) xs).b = min xs.length N := rollRun_count _ _ _ _
  have hP6 : (1 + u) ^ (4 * xs.length + 6) = (1 + u) * ((1 + u) * ((1 + u) * (1 + u) ^ (4 * xs.length + 3))) := by
    rw [← pow_succ', ← pow_succ', ← pow_succ']
  have hres : lazyRollingVarianceResult (rollRun .lazy N (0 : Fl R) xs).b
        (rollingMomentResult (rollRun .lazy N 0 xs).b ((rollRun .lazy N 0 xs).moment 2))
        ((rollRun .lazy N 0 xs).mean .lazy)
      = .val (((min xs.length N : ℕ) : Fl R) * (m2 - m * m) / (((min xs.length N : ℕ) : Fl R) - 1)) := by
    rw [hm2, hm, lazyRollingVarianceResult, hcnt, if_neg (by omega), Res.val_bind, Res.val_bind]
    simp [fdiv, hdne]
  refine ⟨_, hres, ?_⟩
  rw [Fl.val_div, hd, Fl.val_mul, Fl.val_natCast, hwn, hP6]
  generalize (1 + u) ^ (4 * xs.length + 3) = G at *
  generalize (1 + u) ^ (2 * xs.length + 1) = G1 at *
  generalize (1 + u) ^ (2 * xs.length + 2) = G2 at *
  generalize max 1 ((xs.length : K) / N) = r at *
  generalize Spec.mean ((Spec.lastN N xs).map Fl.val) = mu at *
  generalize ((xs.drop (xs.length - N)).map fun x => x.val ^ 2).sum / ((min xs.length N : ℕ) : K) = E2 at *
  have hBr : B ≤ B * r := le_mul_of_one_le_right hB0 hr1
  have hB2r : B ^ 2 * r ≤ (B * r) ^ 2 := by
    rw [mul_pow]
    have : r ≤ r ^ 2 := by nlinarith
    exact mul_le_mul_of_nonneg_left this (sq_nonneg B)
  have hB2 : B ^ 2 ≤ (B * r) ^ 2 := pow_le_pow_left₀ hB0 hBr 2
  have d := lazyDiff_err hu (A := B * r) (A2 := (B * r) ^ 2) (G1 := G1) (G2 := G2) (G := G)
    (he2'.trans (mul_le_mul_of_nonneg_left hB2r (by linarith))) he (hmu.trans hBr)
    (by rw [abs_of_nonneg hsq0]; linarith) (le_of_eq (by ring)) hp1 hG2 hG
  have hdiff : |E2 - mu * mu| ≤ 2 * (B * r) ^ 2 := by
    refine (abs_sub _ _).trans ?_
    rw [abs_of_nonneg hsq0, abs_mul]
    have := mul_le_mul (hmu.trans hBr) (hmu.trans hBr) (abs_nonneg _) (hB0.trans hBr)
    nlinarith
  generalize ((min xs.length N : ℕ) : K) = w at *
  have hw1 : 0 < w - 1 := by linarith
  have d2 := hu.round (z := w * (m2 - m * m).val) (t := w * (E2 - mu * mu)) (a := w * (2 * (B * r) ^ 2)) (d := (1 + u) * G - 1)
    (by rw [abs_mul, abs_of_pos hw0]; exact mul_le_mul_of_nonneg_left hdiff hw0.le)
    (by
      rw [← mul_sub, abs_mul, abs_of_pos hw0]
      exact (mul_le_mul_of_nonneg_left d hw0.le).trans (le_of_eq (by ring)))
  have d3 := hu.round (z := R.rd (w * (m2 - m * m).val) / (w - 1)) (t := w * (E2 - mu * mu) / (w - 1))
    (a := w * (2 * (B * r) ^ 2) / (w - 1)) (d := (1 + u) * (1 + ((1 + u) * G - 1)) - 1)
    (by
      rw [abs_div, abs_of_pos hw1, abs_mul, abs_of_pos hw0]
      exact div_le_div_of_nonneg_right (mul_le_mul_of_nonneg_left hdiff hw0.le) hw1.le)
    (by
      rw [← sub_div, abs_div, abs_of_pos hw1, ← mul_div_assoc]
      exact div_le_div_of_nonneg_right d2 hw1.le)
  refine d3.trans (le_of_eq ?_)
  field_simp
  ring

/-! ## what remains of a sample that has left -/

/-- **C95, the error does not leave with the samples**: with `double`s and a window of two samples, after `10¹⁶, 1, 0, 0, 0` the
window holds only zeros and the lazy variance is negative. -/
theorem C95_lazy_drift :
    let R := double
    let xs : List (Fl R) := [10 ^ 16, 1, 0, 0, 0].map (Fl.ofK R)
    (windowResult (rollRun .lazy 2 0 xs).b).map Fl.val = [0, 0] ∧
      Fl.val <$> lazyRollingVarianceResult (rollRun .lazy 2 0 xs).b
        (rollingMomentResult (rollRun .lazy 2 0 xs).b ((rollRun .lazy 2 0 xs).moment 2))
        ((rollRun .lazy 2 0 xs).mean .lazy) = .val (-3 / 2) := by
  decide +kernel

/-- What the immediate variance is computed from. -/
def rollCore {X : Type} (s : RollSt X) : Ring X × Res X × Res X × Res X := (s.b, s.imean, s.var.prevMean, s.var.ss)

theorem rollCore_push {X : Type} [Arith X] [LinearOrder X] {s t : RollSt X} (h : rollCore s = rollCore t) (x : X) :
    rollCore (s.push .immediate x) = rollCore (t.push .immediate x) := by
  simp only [rollCore, Prod.mk.injEq] at h
  obtain ⟨h1, h2, h3, h4⟩ := h
  simp [rollCore, RollSt.push, RollVar.step, h1, h2, h3, h4]

/-- **C95, for ever**: with `double`s and a window of two samples, after `10¹⁶` the samples `1, 3, 1, 3, ...` have sample variance 2
in every window; the immediate variance remains 0, however many of them follow. -/
theorem C95_immediate_for_ever (n : ℕ) :
    let R := double
    let xs : List (Fl R) := Fl.ofK R (10 ^ 16) :: (List.replicate (n + 1) [Fl.ofK R 1, Fl.ofK R 3]).flatten
    (windowResult (rollRun .immediate 2 0 xs).b).map Fl.val = [1, 3] ∧
      Spec.sampleVariance ((xs.drop (xs.length - 2)).map Fl.val) = 2 ∧
      Fl.val <$> (rollRun .immediate 2 0 xs).var.result (rollRun .immediate 2 0 xs).b = .val 0 := by
  intro R xs
  have hpush : ∀ n, rollRun .immediate 2 0 (Fl.ofK R (10 ^ 16) :: (List.replicate (n + 1) [Fl.ofK R 1, Fl.ofK R 3]).flatten)
      = ((rollRun .immediate 2 0 (Fl.ofK R (10 ^ 16) :: (List.replicate n [Fl.ofK R 1, Fl.ofK R 3]).flatten)).push .immediate
          (Fl.ofK R 1)).push .immediate (Fl.ofK R 3) := by
    intro n
    rw [← rollRun_push_last, ← rollRun_push_last, List.replicate_succ']
    simp
  have hcore : ∀ n, rollCore (rollRun .immediate 2 0
        (Fl.ofK R (10 ^ 16) :: (List.replicate (n + 2) [Fl.ofK R 1, Fl.ofK R 3]).flatten))
      = rollCore (rollRun .immediate 2 0 ([10 ^ 16, 1, 3, 1, 3].map (Fl.ofK R))) := by
    intro n
    induction n with
    | zero => rfl
    | succ n ih =>
      rw [hpush (n + 2), rollCore_push (rollCore_push ih _) _]
      decide +kernel
  have hwin : (windowResult (rollRun .immediate 2 0 xs).b).map Fl.val = [1, 3] ∧
      Fl.val <$> (rollRun .immediate 2 0 xs).var.result (rollRun .immediate 2 0 xs).b = .val 0 := by
    cases n with
    | zero =>
      change (windowResult (rollRun .immediate 2 0 ([10 ^ 16, 1, 3].map (Fl.ofK R))).b).map Fl.val = [1, 3] ∧
        Fl.val <$> (rollRun .immediate 2 0 ([10 ^ 16, 1, 3].map (Fl.ofK R))).var.result
          (rollRun .immediate 2 0 ([10 ^ 16, 1, 3].map (Fl.ofK R))).b = .val 0
      decide +kernel
    | succ n =>
      have h := hcore n
      change rollCore (rollRun .immediate 2 0 xs) = _ at h
      simp only [rollCore, Prod.mk.injEq] at h
      obtain ⟨h1, -, -, h4⟩ := h
      rw [RollVar.result, h1, h4]
      decide +kernel
  have hdrop : xs.drop (xs.length - 2) = [Fl.ofK R 1, Fl.ofK R 3] := by
    have : xs = (Fl.ofK R (10 ^ 16) :: (List.replicate n [Fl.ofK R 1, Fl.ofK R 3]).flatten) ++ [Fl.ofK R 1, Fl.ofK R 3] := by
      simp only [xs]
      rw [List.replicate_succ']
      simp
    rw [this]
    exact List.drop_left' (by simp)
  refine ⟨hwin.1, ?_, hwin.2⟩
  rw [hdrop]
  decide +kernel

/-! ## examples -/

example : ∃ v : Fl double, (rollRun .immediate 2 0 [Fl.ofK double (1 / 10), 1, 3]).var.result
      (rollRun .immediate 2 0 [Fl.ofK double (1 / 10), 1, 3]).b = .val v ∧
    let E := ((1 + 1 / 2 ^ 53 : ℚ) ^ (3 * 3) - 1) * (2 * 3 * max 1 (((3 : ℕ) : ℚ) / (2 : ℕ)))
    |v.val - Spec.sampleVariance (([Fl.ofK double (1 / 10), 1, 3].drop (3 - 2)).map Fl.val)|
      ≤ ((1 + 1 / 2 ^ 53) ^ (2 * 3 + 1) * (2 * (3 : ℕ) * (((1 + 1 / 2 ^ 53) ^ 3 - 1) * (2 * 3 + E) ^ 2 + E * (4 * 3 + E)))
          + ((1 + 1 / 2 ^ 53) ^ (2 * 3 + 1) - 1) * (((2 : ℕ) + 4) * 3 ^ 2)) / ((min 3 2 : ℕ) - 1) :=
  C95_immediate (B := 3) double_relErr [Fl.ofK double (1 / 10), 1, 3] (by
    intro x hx
    fin_cases hx <;> decide +kernel) (by norm_num) (double_counts (by norm_num))

end Acc
