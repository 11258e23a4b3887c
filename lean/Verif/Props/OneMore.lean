import Verif.Props.MonoData

/-!
# C104: what one more sample does

The result before and after a single push.
-/

set_option linter.unusedSectionVars false

namespace Acc

variable {K : Type} [Field K] [LinearOrder K] [IsStrictOrderedRing K] {R : Rounding K}

/-- **C104** In floating point with any rounding: a sample that is not negative never lowers `sum`, one that is not
positive never raises it. -/
theorem C104_sum (x0 : Fl R) (xs : List (Fl R)) (x : Fl R) :
    (0 ≤ x → sumRun id x0 xs ≤ sumRun id x0 (xs ++ [x])) ∧ (x ≤ 0 → sumRun id x0 (xs ++ [x]) ≤ sumRun id x0 xs) := by
  have e : sumRun id x0 (xs ++ [x]) = sumRun id x0 xs + x := by
    unfold sumRun
    rw [List.foldl_append]
    rfl
  rw [e]
  generalize sumRun id x0 xs = s
  constructor
  · intro h
    show s.val ≤ R.rd _
    conv_lhs => rw [← s.rd_val]
    exact R.mono (le_add_of_nonneg_right (Fl.le_iff.1 h))
  · intro h
    show R.rd _ ≤ s.val
    conv_rhs => rw [← s.rd_val]
    exact R.mono (add_le_of_nonpos_right (Fl.le_iff.1 h))

/-- **C104** `mean` and `immediate_mean` in exact arithmetic move towards the new sample, by its distance divided by the
new count. -/
theorem C104_mean (xs : List K) (h : xs ≠ []) (x : K) :
    ∃ m m', (lazyMean 0).read ((lazyMean 0).run xs) = .val m ∧ (immMean 0).read ((immMean 0).run xs) = .val m ∧
      (lazyMean 0).read ((lazyMean 0).run (xs ++ [x])) = .val m' ∧
      (immMean 0).read ((immMean 0).run (xs ++ [x])) = .val m' ∧
      m' - m = (x - m) / ((xs.length : K) + 1) ∧ (m ≤ x → m ≤ m' ∧ m' ≤ x) ∧ (x ≤ m → x ≤ m' ∧ m' ≤ m) ∧
      (m' = m ↔ x = m) := by
  have hn : (0 : K) < xs.length := by exact_mod_cast List.length_pos_of_ne_nil h
  have hd : (xs ++ [x]).sum / ((xs ++ [x]).length : K) - xs.sum / (xs.length : K)
      = (x - xs.sum / (xs.length : K)) / ((xs.length : K) + 1) := by
    have h1 : (xs.length : K) + 1 ≠ 0 := by positivity
    simp only [List.sum_append, List.sum_cons, List.sum_nil, List.length_append, List.length_cons, List.length_nil]
    push_cast
    field_simp
    ring
  refine ⟨_, _, C04_lazy_mean xs h, C04_immediate_mean 0 xs h, C04_lazy_mean _ (by simp), C04_immediate_mean 0 _ (by simp),
    hd, ?_⟩
  generalize (xs ++ [x]).sum / ((xs ++ [x]).length : K) = m' at *
  generalize xs.sum / (xs.length : K) = m at *
  have h1 : (0 : K) < (xs.length : K) + 1 := by positivity
  have hd' : (m' - m) * ((xs.length : K) + 1) = x - m := by rw [hd]; field_simp
  refine ⟨fun c => ⟨?_, ?_⟩, fun c => ⟨?_, ?_⟩, fun c => ?_, fun c => ?_⟩
  · nlinarith
  · nlinarith
  · nlinarith
  · nlinarith
  · rw [c, _root_.sub_self, zero_mul] at hd'
    linarith
  · rw [c, _root_.sub_self] at hd'
    rcases mul_eq_zero.1 hd' with g | g
    · linarith
    · linarith

/-- **C104** `count · variance`, in either variant over either mean, grows by `n/(n+1)` times the squared distance of the
new sample from the old mean; it never shrinks. -/
theorem C104_variance (P : MeanProvider K K) (hP : P.Correct) (xs : List K) (h : xs ≠ []) (x : K) :
    ∃ m v v', P.read (P.run xs) = .val m ∧ varianceRun P 0 xs = .val v ∧ lazyVarianceRun P 0 xs = .val v ∧
      varianceRun P 0 (xs ++ [x]) = .val v' ∧ lazyVarianceRun P 0 (xs ++ [x]) = .val v' ∧
      ((xs.length : K) + 1) * v' = xs.length * v + xs.length / ((xs.length : K) + 1) * (x - m) ^ 2 ∧
      xs.length * v ≤ ((xs.length : K) + 1) * v' := by
  have hn : (0 : K) < xs.length := by exact_mod_cast List.length_pos_of_ne_nil h
  have key : ((xs.length : K) + 1) * Spec.variance (xs ++ [x])
      = xs.length * Spec.variance xs + xs.length / ((xs.length : K) + 1) * (x - Spec.mean xs) ^ 2 := by
    have e1 : Spec.variance xs = (xs.map (fun x => x ^ 2)).sum / (xs.length : K)
        - (xs.sum / (xs.length : K)) * (xs.sum / (xs.length : K)) := by
      rw [Spec.variance, centralTwo_eq h]; rfl
    have e2 : Spec.variance (xs ++ [x])
        = ((xs.map (fun x => x ^ 2)).sum + x ^ 2) / ((xs.length : K) + 1)
        - ((xs.sum + x) / ((xs.length : K) + 1)) * ((xs.sum + x) / ((xs.length : K) + 1)) := by
      rw [Spec.variance, centralTwo_eq (by simp)]
      simp [Spec.rawMoment, Spec.mean]
    have h1 : (xs.length : K) + 1 ≠ 0 := by positivity
    rw [e1, e2, Spec.mean]
    field_simp
    ring
  refine ⟨_, _, _, hP xs h, C06_variance P hP xs h, C06_lazy_variance P hP xs h, C06_variance P hP _ (by simp),
    C06_lazy_variance P hP _ (by simp), key, ?_⟩
  rw [key]
  exact le_add_of_nonneg_right (mul_nonneg (by positivity) (sq_nonneg _))

/-! ## Tails -/

section
variable {α : Type} [LinearOrder α]

theorem byExtremity_snoc (side : Side) (xs : List α) (x : α) :
    Spec.byExtremity side (xs ++ [x]) = (Spec.byExtremity side xs).orderedInsert (Spec.geExt side) x := by
  symm
  apply byExtremity_unique
  · refine (List.perm_orderedInsert _ _ _).trans (((byExtremity_perm side xs).cons x).trans ?_)
    exact (List.perm_append_singleton x xs).symm
  · exact (byExtremity_sorted side xs).orderedInsert x _

theorem insert_outward {side : Side} {s : List α} (hs : s.Pairwise (Spec.geExt side)) (x : α) :
    List.Forall₂ (Spec.geExt side) ((s.orderedInsert (Spec.geExt side) x).take s.length) s := by
  induction s generalizing x with
  | nil => simp
  | cons a s ih =>
    rw [List.pairwise_cons] at hs
    by_cases c : Spec.geExt side x a
    · rw [List.orderedInsert_cons_of_le _ _ c]
      refine .cons c ?_
      have := ih hs.2 a
      rwa [orderedInsert_of_le hs.1] at this
    · rw [List.orderedInsert_of_not_le _ _ c]
      exact .cons (by cases side <;> exact le_refl a) (ih hs.2 x)

theorem insert_take {side : Side} {s : List α} (k : ℕ) (x : α) :
    ((s.take k).orderedInsert (Spec.geExt side) x).take k = (s.orderedInsert (Spec.geExt side) x).take k := by
  induction s generalizing k with
  | nil => simp
  | cons a s ih =>
    cases k with
    | zero => simp
    | succ k =>
      rw [List.take_succ_cons]
      by_cases c : Spec.geExt side x a
      · rw [List.orderedInsert_cons_of_le _ _ c, List.orderedInsert_cons_of_le _ _ c]
        cases k with
        | zero => simp
        | succ k => simp [List.take_take]
      · rw [List.orderedInsert_of_not_le _ _ c, List.orderedInsert_of_not_le _ _ c, List.take_succ_cons, List.take_succ_cons,
          ih]

/-- **C104** One more sample: the entries of the cached tail move outwards, and the new tail consists of the most extreme of
the old tail and the new sample, whatever has left the cache before and wherever the tail was looked at. -/
theorem C104_tail {V : Type} (H : HeapImpl ℕ) (side : Side) {k : ℕ} (hk : 1 ≤ k) (x0 : α) (v0 : V)
    (h : List (Op (α × V) Unit)) (x : α) (v : V) :
    ∃ t t', extractTail H side k x0 v0 h = .val t ∧ extractTail H side k x0 v0 (h ++ [.push (x, v)]) = .val t' ∧
      List.Forall₂ (Spec.geExt side) (t'.take t.length) t ∧ t' = Spec.extremes side k (t ++ [x]) ∧
      t'.length = min k (t.length + 1) := by
  refine ⟨_, _, C15_tail H side hk x0 v0 h, C15_tail H side hk x0 v0 _, ?_⟩
  have e : (pushes (h ++ [.push (x, v)])).map Prod.fst = (pushes h).map Prod.fst ++ [x] := by
    rw [pushes_append, List.map_append]
    rfl
  rw [e]
  generalize (pushes h).map Prod.fst = xs
  have b : Spec.byExtremity side (Spec.extremes side k xs) = Spec.extremes side k xs :=
    (byExtremity_unique (.refl _) ((byExtremity_sorted side xs).sublist (List.take_sublist _ _))).symm
  refine ⟨?_, ?_, ?_⟩
  · rw [extremes_length]
    have g := forall₂_take (insert_outward (byExtremity_sorted side xs) x) k
    rw [← byExtremity_snoc, List.take_take, (byExtremity_perm side xs).length_eq] at g
    show List.Forall₂ _ (List.take _ (List.take k _)) (List.take k _)
    rw [List.take_take, min_right_comm, min_self]
    exact g
  · show List.take k _ = List.take k _
    rw [byExtremity_snoc, byExtremity_snoc, b]
    exact (insert_take k x).symm
  · rw [extremes_length, extremes_length, List.length_append, List.length_singleton]
    omega

end

/-! ## Where it fails -/

/-- **C104, means in floating point**: the mean of 0.1 and 0.1 is 0.1 in `double`; one more sample 0.1 moves it away. -/
theorem C104_mean_fails :
    let f := Fl.ofK double
    (Fl.val <$> (lazyMean 0).read ((lazyMean 0).run [f (1 / 10), f (1 / 10)]) = .val (f (1 / 10)).val ∧
      Fl.val <$> (lazyMean 0).read ((lazyMean 0).run [f (1 / 10), f (1 / 10), f (1 / 10)])
        = .val ((f (1 / 10)).val + 1 / 2 ^ 56)) ∧
    (Fl.val <$> (immMean 0).read ((immMean 0).run [f (1 / 10), f (1 / 10)]) = .val (f (1 / 10)).val ∧
      Fl.val <$> (immMean 0).read ((immMean 0).run [f (1 / 10), f (1 / 10), f (1 / 10)])
        = .val ((f (1 / 10)).val + 1 / 2 ^ 56)) := by
  decide +kernel

/-- **C104, `p_square_quantile`**, in exact arithmetic: after 0, 0, 2, 6, 1, 5 the estimate of the median is 1; a further
sample 1 raises it to 5/3. -/
theorem C104_p_square_fails :
    (psqQuantileSet (1 / 2)).answer (onlyPushes [(0 : ℚ), 0, 2, 6, 1, 5]) () = .val 1 ∧
      (psqQuantileSet (1 / 2)).answer (onlyPushes [(0 : ℚ), 0, 2, 6, 1, 5, 1]) () = .val (5 / 3) := by
  decide +kernel

/-! ## Concrete cases -/

/-- One more sample 6 after 1, 2, 3: the mean moves from 2 to 3, three times the variance is 2, four times the new one 14. -/
example : (lazyMean (0 : ℚ)).read ((lazyMean 0).run [1, 2, 3]) = .val 2 ∧
    (immMean (0 : ℚ)).read ((immMean 0).run [1, 2, 3, 6]) = .val 3 ∧
    varianceRun (immMean 0) 0 [(1 : ℚ), 2, 3] = .val (2 / 3) ∧
    varianceRun (immMean 0) 0 [(1 : ℚ), 2, 3, 6] = .val (14 / 4) := by
  decide +kernel

/-- A full cache of two, with an extraction in between. -/
example : extractTail HeapImpl.simple .right 2 (0 : ℚ) () [.push (5, ()), .query (), .push (1, ()), .push (4, ())] = .val [5, 4] ∧
    extractTail HeapImpl.simple .right 2 (0 : ℚ) () [.push (5, ()), .query (), .push (1, ()), .push (4, ()), .push (7, ())]
      = .val [7, 5] := by
  decide +kernel

/-- A rounded sum and a sample that is not negative. -/
example : (0 : Fl double) ≤ Fl.ofK double (1 / 10) ∧
    (sumRun id 0 [Fl.ofK double (1 / 10), Fl.ofK double (1 / 10)]).val
      < (sumRun id 0 [Fl.ofK double (1 / 10), Fl.ofK double (1 / 10), Fl.ofK double (1 / 10)]).val := by
  decide +kernel

end Acc
