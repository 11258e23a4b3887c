import Verif.Props.Round

/-!
# C101: whole-number samples in floating point

Counts, scores, prices in cents: the samples are whole numbers stored in a `double`.  As long as the sums stay within
`2⁵³` nothing is rounded except the last division.
-/

set_option linter.unusedSectionVars false

namespace Acc

variable {K : Type} [Field K] [LinearOrder K] [IsStrictOrderedRing K] {R : Rounding K} {B : ℕ}

/-- A whole number as a floating point number (the conversion of an `int` to `double`). -/
def Fl.whole (R : Rounding K) (z : ℤ) : Fl R := Fl.ofK R (z : K)

theorem rd_whole (hB : R.Counts B) {z : ℤ} (h : z.natAbs ≤ B) : R.rd (z : K) = z := by
  rcases Int.natAbs_eq z with e | e
  · rw [e, Int.cast_natCast]; exact hB _ h
  · rw [e, Int.cast_neg, Int.cast_natCast]; exact R.neg _ (hB _ h)

theorem whole_val (hB : R.Counts B) {z : ℤ} (h : z.natAbs ≤ B) : (Fl.whole R z).val = z := rd_whole hB h

theorem whole_zero : Fl.whole R 0 = 0 := Fl.ext (by simp [Fl.whole, R.zero])

theorem whole_one : Fl.whole R 1 = 1 := Fl.ext (by simp [Fl.whole, R.one])

theorem whole_nat (n : ℕ) : ((n : ℕ) : Fl R) = Fl.whole R n :=
  Fl.ext (by rw [Fl.val_natCast]; simp [Fl.whole])

theorem whole_add (hB : R.Counts B) {a b : ℤ} (ha : a.natAbs ≤ B) (hb : b.natAbs ≤ B) :
    Fl.whole R a + Fl.whole R b = Fl.whole R (a + b) :=
  Fl.ext (by rw [Fl.val_add, whole_val hB ha, whole_val hB hb, Fl.whole, Fl.val_ofK, Int.cast_add])

theorem whole_sub (hB : R.Counts B) {a b : ℤ} (ha : a.natAbs ≤ B) (hb : b.natAbs ≤ B) :
    Fl.whole R a - Fl.whole R b = Fl.whole R (a - b) :=
  Fl.ext (by rw [Fl.val_sub, whole_val hB ha, whole_val hB hb, Fl.whole, Fl.val_ofK, Int.cast_sub])

theorem whole_mul (hB : R.Counts B) {a b : ℤ} (ha : a.natAbs ≤ B) (hb : b.natAbs ≤ B) :
    Fl.whole R a * Fl.whole R b = Fl.whole R (a * b) :=
  Fl.ext (by rw [Fl.val_mul, whole_val hB ha, whole_val hB hb, Fl.whole, Fl.val_ofK, Int.cast_mul])

/-- The quotient of two whole numbers: the exact quotient, rounded once. -/
theorem whole_fdiv (hB : R.Counts B) {a b : ℤ} (ha : a.natAbs ≤ B) (hb : b.natAbs ≤ B) (h0 : b ≠ 0) :
    fdiv (Fl.whole R a) (Fl.whole R b) = .val (Fl.ofK R ((a : K) / b)) := by
  have hne : Fl.whole R b ≠ 0 := by
    rw [Ne, Fl.eq_zero_iff, whole_val hB hb]
    exact_mod_cast h0
  unfold fdiv
  rw [if_neg hne]
  exact congrArg _ (Fl.ext (by rw [Fl.val_div, whole_val hB ha, whole_val hB hb]; rfl))

theorem natAbs_pow_le {z : ℤ} {m n : ℕ} (hm : 0 < m) (h : m ≤ n) : (z ^ m).natAbs ≤ (z ^ n).natAbs := by
  rw [Int.natAbs_pow, Int.natAbs_pow]
  rcases Nat.eq_zero_or_pos z.natAbs with e | e
  · rw [e, Nat.zero_pow hm]; exact Nat.zero_le _
  · exact Nat.pow_le_pow_right e h

/-- The power by repeated squaring of a whole number is exact when the power is representable. -/
theorem whole_mpow (hB : R.Counts B) {z : ℤ} : ∀ {n : ℕ}, 0 < n → (z ^ n).natAbs ≤ B →
    mpow (Fl.whole R z) n = Fl.whole R (z ^ n) := by
  intro n
  induction n using Nat.strong_induction_on with
  | _ n ih =>
    intro h0 hb
    unfold mpow
    rw [dif_neg (by omega)]
    by_cases h1 : n = 1
    · rw [dif_pos h1, h1, pow_one]
    · rw [dif_neg h1]
      have hz : z.natAbs ≤ B := by
        have := natAbs_pow_le (z := z) (m := 1) (n := n) Nat.one_pos h0
        rw [pow_one] at this
        exact this.trans hb
      have hh : (z ^ (n / 2)).natAbs ≤ B := (natAbs_pow_le (by omega) (by omega)).trans hb
      rw [ih (n / 2) (by omega) (by omega) hh]
      simp only
      rw [whole_mul hB hh hh, ← pow_add]
      have hh2 : (z ^ (n / 2 + n / 2)).natAbs ≤ B := (natAbs_pow_le (by omega) (by omega)).trans hb
      by_cases h2 : n % 2 = 1
      · rw [if_pos h2, whole_mul hB hh2 hz, ← pow_succ]
        congr 2; omega
      · rw [if_neg h2]
        congr 2; omega

/-! ## Sums -/

theorem natAbs_sum_le {A : Type} (g : A → ℤ) (l : List A) :
    (l.map g).sum.natAbs ≤ (l.map fun a => (g a).natAbs).sum := by
  induction l with
  | nil => simp
  | cons a l ih =>
    simp only [List.map_cons, List.sum_cons]
    exact (Int.natAbs_add_le _ _).trans (Nat.add_le_add_left ih _)

/-- A running sum of whole numbers. -/
theorem foldl_whole (hB : R.Counts B) {A : Type} (tag : A → Fl R) (g : A → ℤ) (l : List A)
    (hg : ∀ a ∈ l, tag a = Fl.whole R (g a)) (s : ℤ)
    (h : s.natAbs + (l.map fun a => (g a).natAbs).sum ≤ B) :
    l.foldl (fun s a => s + tag a) (Fl.whole R s) = Fl.whole R (s + (l.map g).sum) := by
  induction l generalizing s with
  | nil => simp
  | cons a l ih =>
    simp only [List.map_cons, List.sum_cons] at h
    have hs := Int.natAbs_add_le s (g a)
    rw [List.foldl_cons, hg a (by simp), whole_add hB (by omega) (by omega),
      ih (fun b hb => hg b (List.mem_cons_of_mem _ hb)) _ (by omega)]
    simp [add_assoc]

/-- **C101** `sum` of whole numbers is exact: the floating point number returned is the sum itself. -/
theorem C101_sum (hB : R.Counts B) (zs : List ℤ) (h : (zs.map Int.natAbs).sum ≤ B) :
    (sumRun id 0 (zs.map (Fl.whole R))).val = zs.sum := by
  have := foldl_whole hB (Fl.whole R) id zs (fun _ _ => rfl) 0 (by simpa using h)
  unfold sumRun sumStep
  rw [List.foldl_map]
  simp only [whole_zero, zero_add, List.map_id, id] at this ⊢
  rw [this, whole_val hB]
  exact (by simpa using natAbs_sum_le id zs : zs.sum.natAbs ≤ _).trans h

/-- **C101** `sum_kahan` of whole numbers is exact and the compensation stays zero. -/
theorem C101_sum_kahan (hB : R.Counts B) (zs : List ℤ) (h : (zs.map Int.natAbs).sum ≤ B) :
    (kahanRun id 0 (zs.map (Fl.whole R))).sum.val = zs.sum ∧
      (kahanRun id 0 (zs.map (Fl.whole R))).compensation = 0 := by
  have key : ∀ (l : List ℤ) (s : ℤ), s.natAbs + (l.map Int.natAbs).sum ≤ B →
      l.foldl (fun (k : Kahan (Fl R)) z => k.step (Fl.whole R z)) ⟨Fl.whole R s, 0⟩
        = ⟨Fl.whole R (s + l.sum), 0⟩ := by
    intro l
    induction l with
    | nil => intro s _; simp
    | cons a l ih =>
      intro s hs
      simp only [List.map_cons, List.sum_cons] at hs
      have h1 := Int.natAbs_add_le s a
      have e : (⟨Fl.whole R s, 0⟩ : Kahan (Fl R)).step (Fl.whole R a) = ⟨Fl.whole R (s + a), 0⟩ := by
        have a0 : Fl.whole R a - 0 = Fl.whole R a := by
          rw [← whole_zero, whole_sub hB (by omega) (by simp), sub_zero]
        simp only [Kahan.step, a0]
        rw [whole_add hB (by omega) (by omega), whole_sub hB (by omega) (by omega), add_sub_cancel_left,
          whole_sub hB (by omega) (by omega), sub_self, whole_zero]
      rw [List.foldl_cons, e, ih _ (by omega), List.sum_cons, add_assoc]
  have := key zs 0 (by simpa using h)
  unfold kahanRun Kahan.init
  rw [List.foldl_map]
  rw [whole_zero, zero_add] at this
  simp only [id]
  rw [this]
  refine ⟨?_, rfl⟩
  show (Fl.whole R zs.sum).val = _
  rw [whole_val hB]
  exact (by simpa using natAbs_sum_le id zs : zs.sum.natAbs ≤ _).trans h

theorem lazyMean_whole (hB : R.Counts B) (zs : List ℤ) (h : (zs.map Int.natAbs).sum ≤ B) :
    (lazyMean (0 : Fl R)).run (zs.map (Fl.whole R)) = ⟨zs.length, Fl.whole R zs.sum⟩ := by
  have hs : ∀ xs : List (Fl R), (lazyMean (0 : Fl R)).run xs = ⟨xs.length, sumRun id 0 xs⟩ := by
    intro xs
    induction xs using List.reverseRecOn with
    | nil => rfl
    | append_singleton l a ih =>
      unfold MeanProvider.run at ih ⊢
      rw [List.foldl_append, ih]
      simp [lazyMean, sumRun]
  rw [hs, List.length_map]
  congr 1
  apply Fl.ext
  rw [C101_sum hB zs h, whole_val hB]
  exact (by simpa using natAbs_sum_le id zs : zs.sum.natAbs ≤ _).trans h

/-- **C101** `mean` of whole numbers is the exact mean, rounded once: no other floating point number is nearer. -/
theorem C101_mean (hB : R.Counts B) (zs : List ℤ) (h0 : zs ≠ []) (hn : zs.length ≤ B)
    (h : (zs.map Int.natAbs).sum ≤ B) :
    Fl.val <$> (lazyMean 0).read ((lazyMean 0).run (zs.map (Fl.whole R)))
      = .val (R.rd ((zs.sum : K) / zs.length)) := by
  rw [lazyMean_whole hB zs h]
  show Fl.val <$> fdiv (Fl.whole R zs.sum) ((zs.length : ℕ) : Fl R) = _
  have h1 : zs.sum.natAbs ≤ B := (by simpa using natAbs_sum_le id zs : zs.sum.natAbs ≤ _).trans h
  have h2 : ((zs.length : ℤ)) ≠ 0 := by
    have := List.length_pos_iff.2 h0
    omega
  rw [whole_nat, whole_fdiv hB h1 (by simpa using hn) h2, Int.cast_natCast]
  rfl

/-- The mean of whole numbers whose mean is a whole number is exact. -/
theorem C101_mean_whole (hB : R.Counts B) (zs : List ℤ) (h0 : zs ≠ []) (hn : zs.length ≤ B)
    (h : (zs.map Int.natAbs).sum ≤ B) (m : ℤ) (hm : zs.sum = m * zs.length) :
    Fl.val <$> (lazyMean 0).read ((lazyMean 0).run (zs.map (Fl.whole R))) = .val (m : K) := by
  rw [C101_mean hB zs h0 hn h, hm]
  have hl := List.length_pos_iff.2 h0
  have h2 : (zs.length : K) ≠ 0 := by exact_mod_cast hl.ne'
  push_cast
  rw [mul_div_cancel_right₀ _ h2, rd_whole hB]
  have h1 : zs.sum.natAbs ≤ B := (by simpa using natAbs_sum_le id zs : zs.sum.natAbs ≤ _).trans h
  rw [hm, Int.natAbs_mul, Int.natAbs_natCast] at h1
  exact (Nat.le_mul_of_pos_right _ hl).trans h1

theorem momentRun_whole (hB : R.Counts B) {N : ℕ} (hN : 0 < N) (zs : List ℤ) (h0 : zs ≠ []) (hn : zs.length ≤ B)
    (h : (zs.map fun z => z.natAbs ^ N).sum ≤ B) :
    momentRun N 0 (zs.map (Fl.whole R))
      = .val (Fl.ofK R (((zs.map fun z => z ^ N).sum : ℤ) / (zs.length : K))) := by
  have hb : (zs.map fun z => (z ^ N).natAbs).sum ≤ B := by simpa [Int.natAbs_pow] using h
  have he : ∀ z ∈ zs, (z ^ N).natAbs ≤ B := fun z hz =>
    (List.single_le_sum (by simp) _ (List.mem_map.2 ⟨z, hz, rfl⟩)).trans hb
  have hs : ∀ (xs : List (Fl R)) (s : Fl R) (k : ℕ), xs.foldl (MomentSt.push N) ⟨k, s⟩
      = ⟨k + xs.length, xs.foldl (fun s x => s + mpow x N) s⟩ := by
    intro xs
    induction xs with
    | nil => intro s k; rfl
    | cons a l ih =>
      intro s k
      rw [List.foldl_cons, MomentSt.push, ih, List.foldl_cons, List.length_cons]
      congr 1
      show k + 1 + l.length = k + (l.length + 1)
      omega
  unfold momentRun MomentSt.init MomentSt.result
  rw [hs, List.length_map, List.foldl_map]
  have e := foldl_whole hB (fun z => mpow (Fl.whole R z) N) (fun z => z ^ N) zs
    (fun z hz => whole_mpow hB hN (he z hz)) 0 (by simpa using hb)
  rw [whole_zero, zero_add] at e
  simp only [e, zero_add]
  have h1 : (zs.map fun z => z ^ N).sum.natAbs ≤ B := (natAbs_sum_le _ zs).trans hb
  have h2 : ((zs.length : ℤ)) ≠ 0 := by
    have := List.length_pos_iff.2 h0
    omega
  rw [whole_nat, whole_fdiv hB h1 (by simpa using hn) h2, Int.cast_natCast]

/-- **C101** `moment<N>` of whole numbers is the exact moment, rounded once. -/
theorem C101_moment (hB : R.Counts B) {N : ℕ} (hN : 0 < N) (zs : List ℤ) (h0 : zs ≠ []) (hn : zs.length ≤ B)
    (h : (zs.map fun z => z.natAbs ^ N).sum ≤ B) :
    Fl.val <$> momentRun N 0 (zs.map (Fl.whole R))
      = .val (R.rd (((zs.map fun z => z ^ N).sum : ℤ) / (zs.length : K))) := by
  rw [momentRun_whole hB hN zs h0 hn h]
  rfl

theorem natAbs_le_sq (z : ℤ) : z.natAbs ≤ z.natAbs ^ 2 := by
  rw [pow_two]; exact Nat.le_mul_self _

theorem sum_sq_bound {zs : List ℤ} (h : (zs.map fun z => z.natAbs ^ 2).sum ≤ B) : (zs.map Int.natAbs).sum ≤ B :=
  (List.sum_le_sum fun z _ => natAbs_le_sq z).trans h

/-- **C101** `lazy_variance` of whole numbers: four roundings, whatever the number of samples. -/
theorem C101_lazy_variance (hB : R.Counts B) (zs : List ℤ) (h0 : zs ≠ []) (hn : zs.length ≤ B)
    (h : (zs.map fun z => z.natAbs ^ 2).sum ≤ B) :
    Fl.val <$> lazyVarianceRun (lazyMean 0) 0 (zs.map (Fl.whole R))
      = .val (R.rd (R.rd (((zs.map fun z => z ^ 2).sum : ℤ) / (zs.length : K))
          - R.rd (R.rd ((zs.sum : K) / zs.length) * R.rd ((zs.sum : K) / zs.length)))) := by
  have hm := C101_mean hB zs h0 hn (sum_sq_bound h)
  unfold lazyVarianceRun lazyVarianceResult
  rw [momentRun_whole hB (by norm_num) zs h0 hn h]
  cases hr : (lazyMean (0 : Fl R)).read ((lazyMean 0).run (zs.map (Fl.whole R))) with
  | val m =>
    rw [hr] at hm
    have hm' : m.val = R.rd ((zs.sum : K) / zs.length) := by
      change Res.val m.val = _ at hm
      exact Res.val.inj hm
    show Res.val ((_ - m * m : Fl R)).val = _
    rw [Fl.val_sub, Fl.val_mul, hm']
    rfl
  | _ => rw [hr] at hm; cases hm

/-- **C101, the order does not matter**: `sum`, `sum_kahan`, `mean`, `moment<N>` and `lazy_variance` of whole numbers
return the same bits for every order of the samples. -/
theorem C101_order (hB : R.Counts B) {zs zs' : List ℤ} (p : zs.Perm zs') (h0 : zs ≠ []) (hn : zs.length ≤ B) {N : ℕ}
    (hN : 2 ≤ N) (h : (zs.map fun z => z.natAbs ^ N).sum ≤ B) :
    sumRun id 0 (zs.map (Fl.whole R)) = sumRun id 0 (zs'.map (Fl.whole R)) ∧
      (kahanRun id 0 (zs.map (Fl.whole R))).sum = (kahanRun id 0 (zs'.map (Fl.whole R))).sum ∧
      (lazyMean 0).read ((lazyMean 0).run (zs.map (Fl.whole R)))
        = (lazyMean 0).read ((lazyMean 0).run (zs'.map (Fl.whole R))) ∧
      momentRun N 0 (zs.map (Fl.whole R)) = momentRun N 0 (zs'.map (Fl.whole R)) ∧
      lazyVarianceRun (lazyMean 0) 0 (zs.map (Fl.whole R))
        = lazyVarianceRun (lazyMean 0) 0 (zs'.map (Fl.whole R)) := by
  have p0 : zs' ≠ [] := fun e => h0 (by subst e; exact p.eq_nil)
  have pl := p.length_eq
  have mono : ∀ z : ℤ, z.natAbs ^ 2 ≤ z.natAbs ^ N := by
    intro z
    have := natAbs_pow_le (z := z) (m := 2) (n := N) (by norm_num) hN
    rwa [Int.natAbs_pow, Int.natAbs_pow] at this
  have h2 : (zs.map fun z => z.natAbs ^ 2).sum ≤ B := (List.sum_le_sum fun z _ => mono z).trans h
  have h1 := sum_sq_bound h2
  have tr : ∀ f : ℤ → ℕ, (zs'.map f).sum = (zs.map f).sum := fun f => ((p.map f).sum_eq).symm
  have trz : ∀ f : ℤ → ℤ, (zs'.map f).sum = (zs.map f).sum := fun f => ((p.map f).sum_eq).symm
  have ps : zs'.sum = zs.sum := p.sum_eq.symm
  have hm : (lazyMean (0 : Fl R)).run (zs.map (Fl.whole R)) = (lazyMean 0).run (zs'.map (Fl.whole R)) := by
    rw [lazyMean_whole hB zs h1, lazyMean_whole hB zs' (by rw [tr]; exact h1), pl, ps]
  have hM : ∀ M, 0 < M → (zs.map fun z => z.natAbs ^ M).sum ≤ B →
      momentRun M 0 (zs.map (Fl.whole R)) = momentRun M 0 (zs'.map (Fl.whole R)) := by
    intro M hM hb
    rw [momentRun_whole hB hM zs h0 hn hb, momentRun_whole hB hM zs' p0 (by omega) (by rw [tr]; exact hb), trz, pl]
  refine ⟨Fl.ext ?_, Fl.ext ?_, by rw [hm], hM N (by omega) h, ?_⟩
  · rw [C101_sum hB zs h1, C101_sum hB zs' (by rw [tr]; exact h1), ps]
  · rw [(C101_sum_kahan hB zs h1).1, (C101_sum_kahan hB zs' (by rw [tr]; exact h1)).1, ps]
  · unfold lazyVarianceRun
    rw [hm, hM 2 (by norm_num) h2]

/-! ## Weighted -/

/-- **C101** `weighted_sum` of whole numbers with whole weights is exact. -/
theorem C101_weighted_sum (hB : R.Counts B) (ps : List (ℤ × ℤ))
    (hx : ∀ p ∈ ps, p.1.natAbs ≤ B ∧ p.2.natAbs ≤ B) (h : (ps.map fun p => (p.1 * p.2).natAbs).sum ≤ B) :
    weightedSumRun 0 (ps.map fun p => (Fl.whole R p.1, Fl.whole R p.2))
      = Fl.whole R (ps.map fun p => p.1 * p.2).sum := by
  have e := foldl_whole hB (fun p : ℤ × ℤ => Fl.whole R p.1 * Fl.whole R p.2) (fun p => p.1 * p.2) ps
    (fun p hp => whole_mul hB (hx p hp).1 (hx p hp).2) 0 (by simpa using h)
  unfold weightedSumRun weightedSumStep
  have z : (0 * 1 : Fl R) = Fl.whole R 0 :=
    Fl.ext (by rw [Fl.val_mul, whole_zero, Fl.val_zero, zero_mul, R.zero])
  rw [z, List.foldl_map, e, zero_add]

/-- **C101** `weighted_mean` of whole numbers with whole weights is the exact weighted mean, rounded once. -/
theorem C101_weighted_mean (hB : R.Counts B) (ps : List (ℤ × ℤ))
    (hx : ∀ p ∈ ps, p.1.natAbs ≤ B) (hw : (ps.map fun p => p.2.natAbs).sum ≤ B)
    (h : (ps.map fun p => (p.1 * p.2).natAbs).sum ≤ B) (h0 : (ps.map Prod.snd).sum ≠ 0) :
    Fl.val <$> (lazyWMean 0).read ((lazyWMean 0).run (ps.map fun p => (Fl.whole R p.1, Fl.whole R p.2)))
      = .val (R.rd (((ps.map fun p => p.1 * p.2).sum : ℤ) / ((ps.map Prod.snd).sum : ℤ))) := by
  have hs : ∀ l : List (Fl R × Fl R), (lazyWMean (0 : Fl R)).run l
      = ⟨l.foldl (fun s p => s + p.2) 0, weightedSumRun 0 l⟩ := by
    intro l
    induction l using List.reverseRecOn with
    | nil => rfl
    | append_singleton l a ih =>
      unfold MeanProvider.run at ih ⊢
      rw [List.foldl_append, ih]
      simp [lazyWMean, weightedSumRun, sumStep]
  have hw1 : ∀ p ∈ ps, p.2.natAbs ≤ B := fun p hp =>
    (List.single_le_sum (by simp) _ (List.mem_map.2 ⟨p, hp, rfl⟩)).trans hw
  have e := foldl_whole hB (fun p : ℤ × ℤ => Fl.whole R p.2) Prod.snd ps (fun p _ => rfl) 0 (by simpa using hw)
  rw [whole_zero, zero_add] at e
  rw [hs, C101_weighted_sum hB ps (fun p hp => ⟨hx p hp, hw1 p hp⟩) h, List.foldl_map]
  simp only [e]
  show Fl.val <$> fdiv (Fl.whole R _) (Fl.whole R _) = _
  rw [whole_fdiv hB ((natAbs_sum_le _ ps).trans h) ((natAbs_sum_le _ ps).trans hw) h0]
  rfl

/-! ## Rolling: no drift -/

/-- The common form of `rolling_sum.hpp` and `rolling_moment.hpp`. -/
theorem roll_whole_step (hB : R.Counts B) (G : Fl R → Fl R) (g : ℤ → ℤ) {b N : ℕ} (hN : (N + 1) * b ≤ B)
    (l : List ℤ) (x : ℤ) (hG : ∀ z ∈ l ++ [x], G (Fl.whole R z) = Fl.whole R (g z) ∧ (g z).natAbs ≤ b) :
    (do let s ← Res.val (Fl.whole R ((Spec.lastN N l).map g).sum)
        let s ← if (⟨N + 1, Spec.lastN (N + 1) ((l ++ [x]).map (Fl.whole R))⟩ : Ring (Fl R)).full then
            (do let f ← (⟨N + 1, Spec.lastN (N + 1) ((l ++ [x]).map (Fl.whole R))⟩ : Ring (Fl R)).front
                return s - G f) else (return s)
        return s + G (Fl.whole R x))
      = Res.val (Fl.whole R ((Spec.lastN N (l ++ [x])).map g).sum) := by
  have hmap : ∀ (n : ℕ) (l : List ℤ), Spec.lastN n (l.map (Fl.whole R)) = (Spec.lastN n l).map (Fl.whole R) := by
    intro n l
    simp [Spec.lastN, List.map_drop]
  have hmem : ∀ z ∈ Spec.lastN N l, z ∈ l := fun z hz => List.mem_of_mem_drop hz
  have hwin : ((Spec.lastN N l).map g).sum.natAbs ≤ N * b := by
    refine (natAbs_sum_le g _).trans ?_
    have : ((Spec.lastN N l).map fun a => (g a).natAbs).sum ≤ (Spec.lastN N l).length * b := by
      have := List.sum_le_card_nsmul ((Spec.lastN N l).map fun a => (g a).natAbs) b (by
        intro y hy
        obtain ⟨z, hz, rfl⟩ := List.mem_map.1 hy
        exact (hG z (List.mem_append_left _ (hmem z hz))).2)
      simpa using this
    refine this.trans (Nat.mul_le_mul_right _ ?_)
    rw [lastN_length]; omega
  have hN' : N * b + b ≤ B := by rw [← Nat.succ_mul]; exact hN
  obtain ⟨hx1, hx2⟩ := hG x (by simp)
  rw [hmap, lastN_snoc_succ, lastN_snoc, Res.val_bind, hx1]
  have hfull : (⟨N + 1, (Spec.lastN N l ++ [x]).map (Fl.whole R)⟩ : Ring (Fl R)).full
      = decide ((Spec.lastN N l).length = N) := by simp [Ring.full]
  rw [hfull]
  by_cases hl : (Spec.lastN N l).length = N
  · obtain ⟨f, t, ht⟩ : ∃ f t, Spec.lastN N l ++ [x] = f :: t := by
      cases hW : Spec.lastN N l ++ [x] with
      | nil => simp at hW
      | cons f t => exact ⟨f, t, rfl⟩
    have hfm : f ∈ l ++ [x] := by
      have : f ∈ Spec.lastN N l ++ [x] := by rw [ht]; simp
      rcases List.mem_append.1 this with h | h
      · exact List.mem_append_left _ (hmem f h)
      · exact List.mem_append_right _ h
    obtain ⟨hf1, hf2⟩ := hG f hfm
    have hsum : ((Spec.lastN N l).map g).sum + g x = g f + (t.map g).sum := by
      have := congrArg (fun q => (q.map g).sum) ht
      simpa using this
    have hdec : decide ((Spec.lastN N l).length = N) = true := by simp [hl]
    rw [hdec, if_pos rfl, if_pos hl, ht]
    simp only [Ring.front, List.map_cons, Res.val_bind, Res.pure_eq, List.tail_cons, hf1]
    have h3 := Int.natAbs_sub_le ((Spec.lastN N l).map g).sum (g f)
    rw [whole_sub hB (by omega) (by omega), whole_add hB (by omega) (by omega)]
    congr 2
    linarith
  · have hdec : decide ((Spec.lastN N l).length = N) = false := by simp [hl]
    rw [hdec, if_neg (by simp), if_neg hl]
    simp only [Res.val_bind, Res.pure_eq]
    rw [whole_add hB (by omega) (by omega)]
    simp

theorem roll_whole (hB : R.Counts B) (kind : RollMeanKind) {N b : ℕ} (hN : (N + 1) * b ≤ B) (zs : List ℤ)
    (hb : ∀ z ∈ zs, z.natAbs ≤ b) :
    (rollRun kind N 0 (zs.map (Fl.whole R))).b = ⟨N + 1, Spec.lastN (N + 1) (zs.map (Fl.whole R))⟩ ∧
      (rollRun kind N 0 (zs.map (Fl.whole R))).sum = .val (Fl.whole R (Spec.lastN N zs).sum) := by
  induction zs using List.reverseRecOn with
  | nil => exact ⟨by simp [rollRun, RollSt.init, windowInit, Spec.lastN],
      by simp [rollRun, RollSt.init, Spec.lastN, whole_zero]⟩
  | append_singleton l x ih =>
    obtain ⟨i1, i2⟩ := ih fun z hz => hb z (List.mem_append_left _ hz)
    have e : rollRun kind N (0 : Fl R) ((l ++ [x]).map (Fl.whole R))
        = (rollRun kind N 0 (l.map (Fl.whole R))).push kind (Fl.whole R x) := by
      simp [rollRun, List.foldl_append]
    have hbuf : windowPush (rollRun kind N (0 : Fl R) (l.map (Fl.whole R))).b (Fl.whole R x)
        = ⟨N + 1, Spec.lastN (N + 1) ((l ++ [x]).map (Fl.whole R))⟩ := by
      rw [i1, ← window_run, ← window_run, List.map_append, List.foldl_append]; rfl
    rw [e]
    refine ⟨hbuf, ?_⟩
    have := roll_whole_step hB id id hN l x (fun z hz => ⟨rfl, hb z hz⟩)
    simp only [List.map_id] at this
    rw [← this, ← hbuf, ← i2]
    rfl

/-- **C101** `rolling_sum` of whole numbers is exactly the sum over the window, after any number of samples. -/
theorem C101_rolling_sum (hB : R.Counts B) (kind : RollMeanKind) {N b : ℕ} (hN : (N + 1) * b ≤ B) (zs : List ℤ)
    (hb : ∀ z ∈ zs, z.natAbs ≤ b) :
    Fl.val <$> (rollRun kind N 0 (zs.map (Fl.whole R))).sum
      = .val ((zs.drop (zs.length - N)).sum : K) := by
  rw [(roll_whole hB kind hN zs hb).2]
  show Res.val (Fl.whole R _).val = _
  rw [whole_val hB, Spec.lastN]
  refine le_trans ?_ hN
  refine (by simpa using natAbs_sum_le id (Spec.lastN N zs) : (Spec.lastN N zs).sum.natAbs ≤ _).trans ?_
  have := List.sum_le_card_nsmul ((Spec.lastN N zs).map Int.natAbs) b (by
    intro y hy
    obtain ⟨z, hz, rfl⟩ := List.mem_map.1 hy
    exact hb z (List.mem_of_mem_drop hz))
  rw [List.length_map, lastN_length, smul_eq_mul] at this
  refine this.trans (Nat.mul_le_mul_right _ ?_)
  omega

/-- **C101** `lazy_rolling_mean` of whole numbers is the exact mean of the window, rounded once, after any number of
samples. -/
theorem C101_rolling_mean (hB : R.Counts B) {N b : ℕ} (hN0 : 0 < N) (hNB : N ≤ B) (hN : (N + 1) * b ≤ B)
    (zs : List ℤ) (h0 : zs ≠ []) (hb : ∀ z ∈ zs, z.natAbs ≤ b) :
    Fl.val <$> (rollRun .lazy N 0 (zs.map (Fl.whole R))).mean .lazy
      = .val (R.rd (((zs.drop (zs.length - N)).sum : K) / (zs.drop (zs.length - N)).length)) := by
  obtain ⟨h1, h2⟩ := roll_whole hB .lazy hN zs hb
  have hs := C101_rolling_sum hB .lazy hN zs hb
  have hc : rollingCount (⟨N + 1, Spec.lastN (N + 1) (zs.map (Fl.whole R))⟩ : Ring (Fl R))
      = (zs.drop (zs.length - N)).length := by
    have h := lastN_length N zs
    unfold Spec.lastN at h
    simp only [rollingCount, Ring.full, lastN_length, List.length_map, h]
    split_ifs with h
    · simp at h; omega
    · simp at h; omega
  have hl := List.length_pos_iff.2 h0
  have hpos : (zs.drop (zs.length - N)).length ≠ 0 := by rw [List.length_drop]; omega
  have hle : (zs.drop (zs.length - N)).length ≤ B := by rw [List.length_drop]; omega
  show Fl.val <$> lazyRollingMeanResult (rollRun .lazy N (0 : Fl R) _).b (rollRun .lazy N 0 _).sum = _
  rw [h1, h2, lazyRollingMeanResult, Res.val_bind, hc]
  rw [h2] at hs
  have hv : (Fl.whole R (Spec.lastN N zs).sum).val = ((zs.drop (zs.length - N)).sum : K) := by
    change Res.val (Fl.whole R _).val = _ at hs
    exact Res.val.inj hs
  have hcv : (((zs.drop (zs.length - N)).length : ℕ) : Fl R).val = ((zs.drop (zs.length - N)).length : K) := by
    rw [Fl.val_natCast]; exact hB _ hle
  unfold fdiv
  rw [if_neg (by rw [Fl.eq_zero_iff, hcv]; exact_mod_cast hpos)]
  show Res.val (_ / _ : Fl R).val = _
  rw [Fl.val_div, hv, hcv]

/-- **C101** the running sum inside `rolling_moment<M>`: exact as well, after any number of samples. -/
theorem C101_rolling_moment (hB : R.Counts B) (kind : RollMeanKind) {M N b : ℕ} (hM : 0 < M) (hN0 : 0 < N)
    (hNB : N ≤ B) (hN : (N + 1) * b ^ M ≤ B) (zs : List ℤ) (h0 : zs ≠ []) (hb : ∀ z ∈ zs, z.natAbs ≤ b) :
    Fl.val <$> rollingMomentResult (rollRun kind N 0 (zs.map (Fl.whole R))).b
        ((rollRun kind N 0 (zs.map (Fl.whole R))).moment M)
      = .val (R.rd ((((zs.drop (zs.length - N)).map fun z => z ^ M).sum : ℤ)
          / ((zs.drop (zs.length - N)).length : K))) := by
  have hp : ∀ z ∈ zs, (z ^ M).natAbs ≤ b ^ M := fun z hz => by
    rw [Int.natAbs_pow]; exact Nat.pow_le_pow_left (hb z hz) M
  have hbM : b ^ M ≤ B := (Nat.le_mul_of_pos_left _ (by omega)).trans hN
  have key : (rollRun kind N 0 (zs.map (Fl.whole R))).b = ⟨N + 1, Spec.lastN (N + 1) (zs.map (Fl.whole R))⟩ ∧
      (rollRun kind N 0 (zs.map (Fl.whole R))).moment M
        = .val (Fl.whole R ((Spec.lastN N zs).map fun z => z ^ M).sum) := by
    clear h0 hb
    induction zs using List.reverseRecOn with
    | nil => exact ⟨by simp [rollRun, RollSt.init, windowInit, Spec.lastN],
        by simp [rollRun, RollSt.init, Spec.lastN, whole_zero]⟩
    | append_singleton l x ih =>
      obtain ⟨i1, i2⟩ := ih fun z hz => hp z (List.mem_append_left _ hz)
      have e : rollRun kind N (0 : Fl R) ((l ++ [x]).map (Fl.whole R))
          = (rollRun kind N 0 (l.map (Fl.whole R))).push kind (Fl.whole R x) := by
        simp [rollRun, List.foldl_append]
      have hbuf : windowPush (rollRun kind N (0 : Fl R) (l.map (Fl.whole R))).b (Fl.whole R x)
          = ⟨N + 1, Spec.lastN (N + 1) ((l ++ [x]).map (Fl.whole R))⟩ := by
        rw [i1, ← window_run, ← window_run, List.map_append, List.foldl_append]; rfl
      rw [e]
      refine ⟨hbuf, ?_⟩
      have := roll_whole_step hB (fun y => mpow y M) (fun z => z ^ M) hN l x
        (fun z hz => ⟨whole_mpow hB hM ((hp z hz).trans hbM), hp z hz⟩)
      rw [← this, ← hbuf, ← i2]
      rfl
  have hc : rollingCount (⟨N + 1, Spec.lastN (N + 1) (zs.map (Fl.whole R))⟩ : Ring (Fl R))
      = (zs.drop (zs.length - N)).length := by
    have h := lastN_length N zs
    unfold Spec.lastN at h
    simp only [rollingCount, Ring.full, lastN_length, List.length_map, h]
    split_ifs with h
    · simp at h; omega
    · simp at h; omega
  have hl := List.length_pos_iff.2 h0
  have hpos : (zs.drop (zs.length - N)).length ≠ 0 := by rw [List.length_drop]; omega
  have hle : (zs.drop (zs.length - N)).length ≤ B := by rw [List.length_drop]; omega
  have hsum : ((Spec.lastN N zs).map fun z => z ^ M).sum.natAbs ≤ B := by
    refine ((natAbs_sum_le _ _).trans ?_).trans hN
    have := List.sum_le_card_nsmul ((Spec.lastN N zs).map fun z => (z ^ M).natAbs) (b ^ M) (by
      intro y hy
      obtain ⟨z, hz, rfl⟩ := List.mem_map.1 hy
      exact hp z (List.mem_of_mem_drop hz))
    rw [List.length_map, lastN_length, smul_eq_mul] at this
    refine this.trans (Nat.mul_le_mul_right _ ?_)
    omega
  rw [key.1, key.2, rollingMomentResult, Res.val_bind, hc, whole_nat,
    whole_fdiv hB hsum (by rw [Int.natAbs_natCast]; exact hle) (by exact_mod_cast hpos), Int.cast_natCast]
  rfl

/-! ## The immediate mean is not exact -/

/-- **C101, `immediate_mean`**: eight small whole numbers whose mean `3.75` is representable and returned by `mean`;
`immediate_mean` returns the next `double` above. -/
theorem C101_immediate_mean_fails :
    let xs : List (Fl double) := [9, 9, 1, 3, 3, 1, 3, 1].map (Fl.whole double)
    Fl.val <$> (lazyMean 0).read ((lazyMean 0).run xs) = .val (15 / 4) ∧
      Fl.val <$> (immMean 0).read ((immMean 0).run xs) = .val (15 / 4 + 1 / 2 ^ 51) := by
  decide +kernel

/-! ## The hypotheses can be met -/

example :
    (sumRun id 0 (([3, -5, 1000000007] : List ℤ).map (Fl.whole double))).val = 1000000005 ∧
      Fl.val <$> (lazyMean 0).read ((lazyMean 0).run (([3, -5, 9] : List ℤ).map (Fl.whole double)))
        = .val (double.rd (7 / 3)) ∧
      Fl.val <$> (lazyMean 0).read ((lazyMean 0).run (([3, -5, 8] : List ℤ).map (Fl.whole double))) = .val 2 ∧
      Fl.val <$> momentRun 3 0 (([3, -5, 8] : List ℤ).map (Fl.whole double)) = .val (double.rd (414 / 3)) := by
  refine ⟨?_, ?_, ?_, ?_⟩
  · have := C101_sum (double_counts le_rfl) [3, -5, 1000000007] (by decide)
    norm_num at this ⊢; exact this
  · have := C101_mean (double_counts le_rfl) [3, -5, 9] (by simp) (by decide) (by decide)
    norm_num at this ⊢; exact this
  · have := C101_mean_whole (double_counts le_rfl) [3, -5, 8] (by simp) (by decide) (by decide) 2 (by decide)
    norm_num at this ⊢; exact this
  · have := C101_moment (double_counts le_rfl) (N := 3) (by norm_num) [3, -5, 8] (by simp) (by decide) (by decide)
    norm_num at this ⊢; exact this

example : (kahanRun id 0 (([3, -5, 9] : List ℤ).map (Fl.whole double))).compensation = 0 :=
  (C101_sum_kahan (double_counts le_rfl) [3, -5, 9] (by decide)).2

example : lazyVarianceRun (lazyMean 0) 0 (([3, -5, 9] : List ℤ).map (Fl.whole double))
    = lazyVarianceRun (lazyMean 0) 0 (([9, 3, -5] : List ℤ).map (Fl.whole double)) :=
  (C101_order (double_counts le_rfl) (zs := [3, -5, 9]) (zs' := [9, 3, -5]) (by decide) (by simp) (by decide)
    le_rfl (by decide)).2.2.2.2

example : ∃ v : ℚ, Fl.val <$> lazyVarianceRun (lazyMean 0) 0 (([3, -5, 9] : List ℤ).map (Fl.whole double)) = .val v :=
  ⟨_, C101_lazy_variance (double_counts le_rfl) [3, -5, 9] (by simp) (by decide) (by decide)⟩

example : weightedSumRun 0 (([(3, 2), (-5, 1)] : List (ℤ × ℤ)).map fun p => (Fl.whole double p.1, Fl.whole double p.2))
    = Fl.whole double 1 :=
  C101_weighted_sum (double_counts le_rfl) [(3, 2), (-5, 1)] (by decide) (by decide)

example : Fl.val <$> (lazyWMean 0).read ((lazyWMean 0).run
    (([(3, 2), (-5, 1)] : List (ℤ × ℤ)).map fun p => (Fl.whole double p.1, Fl.whole double p.2)))
    = .val (double.rd (1 / 3)) := by
  have := C101_weighted_mean (double_counts le_rfl) [(3, 2), (-5, 1)] (by decide) (by decide) (by decide) (by decide)
  norm_num at this ⊢; exact this

/-- The rolling sum is still exact after any number of sevens and then `1, 2, 3`. -/
example (n : ℕ) : Fl.val <$> (rollRun .lazy 2 0
    ((List.replicate n (7 : ℤ) ++ [1, 2, 3]).map (Fl.whole double))).sum = .val (5 : ℚ) := by
  have := C101_rolling_sum (double_counts le_rfl) .lazy (N := 2) (b := 7) (by norm_num)
    (List.replicate n (7 : ℤ) ++ [1, 2, 3]) (by
      intro z hz
      rcases List.mem_append.1 hz with h | h
      · rw [List.eq_of_mem_replicate h]; decide
      · simp at h
        omega)
  rw [this]
  have e : (List.replicate n (7 : ℤ) ++ [1, 2, 3]).length - 2 = (List.replicate n (7 : ℤ)).length + 1 := by simp
  rw [e, List.drop_append]
  norm_num

example : Fl.val <$> (rollRun .lazy 2 0 (([7, 1, 2, 4] : List ℤ).map (Fl.whole double))).mean .lazy
    = .val (double.rd (6 / 2)) := by
  have := C101_rolling_mean (double_counts le_rfl) (N := 2) (b := 7) (by norm_num) (by norm_num) (by norm_num)
    [7, 1, 2, 4] (by simp) (by decide)
  norm_num at this ⊢; exact this

example : ∃ v : ℚ, Fl.val <$> rollingMomentResult (rollRun .lazy 2 0 (([7, 1, 2, 4] : List ℤ).map (Fl.whole double))).b
    ((rollRun .lazy 2 0 (([7, 1, 2, 4] : List ℤ).map (Fl.whole double))).moment 3) = .val v :=
  ⟨_, C101_rolling_moment (double_counts le_rfl) .lazy (M := 3) (N := 2) (b := 7) (by norm_num) (by norm_num)
    (by norm_num) (by norm_num) [7, 1, 2, 4] (by simp) (by decide)⟩

end Acc
