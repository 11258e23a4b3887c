import Verif.Model.Ext
import Verif.Model.Weighted
import Verif.Proofs.Rolling
import Verif.Spec.Stats
import Verif.Props.Round
import Verif.Props.Basic

/-!
# Infinite and NaN samples (C76)

The models of the basic and of the rolling statistics, run on numbers with infinities and NaN (`Ext F`).
-/

set_option linter.unusedSectionVars false

namespace Acc

open Ext

section
variable {A : Type} [Arith A] [DecidableEq A]

theorem varianceSt_run (P : MeanProvider (A) (A)) (x0 : A) (xs : List (A)) :
    (xs.foldl (VarianceSt.push P) (VarianceSt.init P x0)).m = P.run xs ∧
      (xs.foldl (VarianceSt.push P) (VarianceSt.init P x0)).cnt = xs.length := by
  induction xs using List.reverseRecOn with
  | nil => exact ⟨rfl, rfl⟩
  | append_singleton xs x ih =>
    rw [List.foldl_append, MeanProvider.run, List.foldl_append, List.length_append]
    exact ⟨congrArg (P.push · x) ih.1, congrArg (· + 1) ih.2⟩

theorem varianceRun_concat (P : MeanProvider (A) (A)) (x0 : A) (xs : List (A)) (x : A) :
    varianceRun P x0 (xs ++ [x])
      = varianceStep (xs.length + 1) (P.read (P.run (xs ++ [x]))) (varianceRun P x0 xs) x := by
  have h := varianceSt_run P x0 xs
  unfold varianceRun
  rw [List.foldl_append]
  show varianceStep (_ + 1) (P.read (P.push _ x)) _ x = _
  rw [h.1, h.2, MeanProvider.run, MeanProvider.run, List.foldl_append]
  rfl

theorem covSt_run (P Q : MeanProvider (A) (A)) (x0 y0 : A) (ps : List (A × A)) :
    (ps.foldl (CovSt.push P Q) (CovSt.init P Q x0 y0)).mx = P.run (ps.map Prod.fst) ∧
    (ps.foldl (CovSt.push P Q) (CovSt.init P Q x0 y0)).my = Q.run (ps.map Prod.snd) ∧
      (ps.foldl (CovSt.push P Q) (CovSt.init P Q x0 y0)).cnt = ps.length := by
  induction ps using List.reverseRecOn with
  | nil => exact ⟨rfl, rfl, rfl⟩
  | append_singleton ps p ih =>
    rw [List.foldl_append, MeanProvider.run, MeanProvider.run, List.map_append, List.map_append, List.foldl_append,
      List.foldl_append, List.length_append]
    exact ⟨congrArg (P.push · p.1) ih.1, congrArg (Q.push · p.2) ih.2.1, congrArg (· + 1) ih.2.2⟩

theorem covarianceRun_concat (P Q : MeanProvider (A) (A)) (x0 y0 : A) (ps : List (A × A))
    (p : A × A) :
    covarianceRun P Q x0 y0 (ps ++ [p])
      = covarianceStep (ps.length + 1) (P.read (P.run ((ps ++ [p]).map Prod.fst)))
        (Q.read (Q.run ((ps ++ [p]).map Prod.snd))) (covarianceRun P Q x0 y0 ps) p.1 p.2 := by
  have h := covSt_run P Q x0 y0 ps
  unfold covarianceRun
  rw [List.foldl_append]
  show covarianceStep (_ + 1) (P.read (P.push _ p.1)) (Q.read (Q.push _ p.2)) _ p.1 p.2 = _
  rw [h.1, h.2.1, h.2.2, MeanProvider.run, MeanProvider.run, MeanProvider.run, MeanProvider.run, List.map_append,
    List.map_append, List.foldl_append, List.foldl_append]
  rfl

end

section
variable {K : Type} [Field K] [LinearOrder K] [IsStrictOrderedRing K] {F : Fmt K}

/-! ## Operations -/

namespace Ext

@[simp] theorem fin_not {a : K} : IsFinite (fin a : Ext F) := trivial
@[simp] theorem pinf_not : ¬ IsFinite (pinf : Ext F) := id
@[simp] theorem ninf_not : ¬ IsFinite (ninf : Ext F) := id
@[simp] theorem nan_not : ¬ IsFinite (nan : Ext F) := id

instance : DecidablePred (IsFinite (F := F))
  | fin _ => .isTrue trivial
  | pinf => .isFalse id
  | ninf => .isFalse id
  | nan => .isFalse id

theorem add_def (a b : Ext F) : a + b = add a b := rfl
theorem sub_def (a b : Ext F) : a - b = sub a b := rfl
theorem mul_def (a b : Ext F) : a * b = mul a b := rfl
theorem div_def (a b : Ext F) : a / b = div a b := rfl
theorem lt_def (a b : Ext F) : a < b ↔ lt a b = true := Iff.rfl
theorem zero_def : (0 : Ext F) = fin 0 := rfl
theorem one_def : (1 : Ext F) = fin 1 := rfl
theorem natCast_def (n : ℕ) : (n : Ext F) = of F n := rfl

/-- Non-finite operands give non-finite results. -/
theorem not_fin_infSign (a : K) : ¬ IsFinite (infSign a : Ext F) := by
  unfold infSign
  split_ifs <;> simp

theorem fin_add {a b : Ext F} (h : IsFinite (a + b)) : IsFinite a ∧ IsFinite b := by
  rw [add_def] at h
  cases a <;> cases b <;> simp_all [add]

theorem fin_sub {a b : Ext F} (h : IsFinite (a - b)) : IsFinite a ∧ IsFinite b := by
  rw [sub_def] at h
  cases a <;> cases b <;> simp_all [sub, add, neg]

theorem fin_mul {a b : Ext F} (h : IsFinite (a * b)) : IsFinite a ∧ IsFinite b := by
  rw [mul_def] at h
  cases a <;> cases b <;> simp_all [mul, not_fin_infSign]

theorem fin_div {a b : Ext F} (h : IsFinite (a / b)) : IsFinite a := by
  rw [div_def] at h
  cases a <;> cases b <;> simp_all [div]
  all_goals split_ifs at h <;> simp at h

@[simp] theorem nan_add (a : Ext F) : nan + a = nan := by rw [add_def]; cases a <;> rfl
@[simp] theorem add_nan (a : Ext F) : a + nan = nan := by rw [add_def]; cases a <;> rfl
@[simp] theorem nan_sub (a : Ext F) : nan - a = nan := by rw [sub_def]; cases a <;> rfl
@[simp] theorem sub_nan (a : Ext F) : a - nan = nan := by rw [sub_def]; cases a <;> rfl
@[simp] theorem nan_mul (a : Ext F) : nan * a = nan := by rw [mul_def]; cases a <;> rfl
@[simp] theorem mul_nan (a : Ext F) : a * nan = nan := by rw [mul_def]; cases a <;> rfl
@[simp] theorem nan_div (a : Ext F) : nan / a = nan := by rw [div_def]; cases a <;> rfl
@[simp] theorem div_nan (a : Ext F) : a / nan = nan := by rw [div_def]; cases a <;> rfl
@[simp] theorem not_lt_nan (a : Ext F) : ¬ a < nan := by rw [lt_def]; cases a <;> simp [lt]
@[simp] theorem not_nan_lt (a : Ext F) : ¬ nan < a := by rw [lt_def]; cases a <;> simp [lt]

theorem one_le_rd {x : K} (h : 1 ≤ x) : 1 ≤ F.rd x := by
  have := F.mono h
  rwa [F.one] at this

/-- A number of samples is at least 1, or infinite. -/
theorem natCast_pos {n : ℕ} (h : n ≠ 0) : (∃ c : K, 1 ≤ c ∧ (n : Ext F) = fin c) ∨ (n : Ext F) = pinf := by
  have h1 : (1 : K) ≤ n := by exact_mod_cast Nat.one_le_iff_ne_zero.2 h
  rw [natCast_def, of]
  split_ifs with h2 h3
  · exact .inr rfl
  · have h4 : F.huge 1 = true := F.huge_mono _ _ (by linarith [one_le_rd (F := F) h1]) h3
    rw [F.huge_one] at h4
    simp at h4
  · exact .inl ⟨_, one_le_rd h1, rfl⟩

theorem natCast_ne {n : ℕ} (h : n ≠ 0) : (n : Ext F) ≠ 0 := by
  rw [zero_def]
  obtain ⟨c, hc, e⟩ | e := natCast_pos (F := F) h
  · rw [e]
    intro h
    have := Ext.fin.inj h
    linarith
  · rw [e]
    nofun

end Ext

/-- A finite number. -/
def IsFin (r : Res (Ext F)) : Prop := ∃ a : K, r = .val (fin a)

theorem fin_iff {a : Ext F} : IsFinite a ↔ ∃ x, a = fin x := by
  cases a <;> simp [IsFinite]

theorem isFin_val {a : Ext F} : IsFin (.val a) ↔ IsFinite a := by
  simp [IsFin, fin_iff]

theorem isFin_bind {r : Res (Ext F)} {f : Ext F → Res (Ext F)} (h : IsFin (r >>= f)) :
    ∃ a, r = .val a ∧ IsFin (f a) := by
  obtain ⟨x, h⟩ := h
  obtain ⟨a, ha, hb⟩ := Res.bind_eq_val.1 h
  exact ⟨a, ha, x, hb⟩

theorem isFin_fdiv {a b : Ext F} (h : IsFin (fdiv a b)) : IsFinite a ∧ fdiv a b = .val (a / b) := by
  unfold fdiv at h ⊢
  split_ifs at h ⊢
  · obtain ⟨_, h⟩ := h
    simp at h
  · exact ⟨fin_div (isFin_val.1 h), rfl⟩

/-! ## What is finite comes from finite samples

For every format, whatever its rounding and its range. -/

theorem foldl_fin {A S : Type} (P : S → Prop) (f : S → A → S) (G : A → Prop)
    (h : ∀ s a, P (f s a) → P s ∧ G a) (as : List A) (s : S) (hP : P (as.foldl f s)) : P s ∧ ∀ a ∈ as, G a := by
  induction as generalizing s with
  | nil => exact ⟨hP, by simp⟩
  | cons a as ih =>
    obtain ⟨h1, h2⟩ := ih _ hP
    obtain ⟨h3, h4⟩ := h _ _ h1
    refine ⟨h3, ?_⟩
    intro b hb
    rcases List.mem_cons.1 hb with rfl | hb
    · exact h4
    · exact h2 b hb

theorem fin_mpow {x : Ext F} {n : ℕ} (hn : n ≠ 0) (h : IsFinite (mpow x n)) : IsFinite x := by
  induction n using Nat.strong_induction_on with
  | _ n ih =>
    rw [mpow] at h
    simp only [hn, dite_false] at h
    split_ifs at h with h1 h2
    · exact h
    · exact (fin_mul h).2
    · exact ih (n / 2) (by omega) (by omega) (fin_mul h).1

/-- **C76** For every floating point format: if the sum, the compensated sum, a mean, a moment or the lazy variance
is a finite number then every sample was.  Once one of these results is infinite or NaN it never becomes finite
again. -/
theorem C76_finite (x0 : Ext F) {N : ℕ} (hN : N ≠ 0) (xs : List (Ext F)) :
    (IsFinite (sumRun id x0 xs) → IsFinite x0 ∧ ∀ x ∈ xs, IsFinite x) ∧
    (IsFinite (kahanRun id x0 xs).sum → ∀ x ∈ xs, IsFinite x) ∧
    (IsFin ((lazyMean x0).read ((lazyMean x0).run xs)) → ∀ x ∈ xs, IsFinite x) ∧
    (IsFin ((immMean x0).read ((immMean x0).run xs)) → ∀ x ∈ xs, IsFinite x) ∧
    (IsFin (momentRun N x0 xs) → ∀ x ∈ xs, IsFinite x) ∧
    (∀ P : MeanProvider (Ext F) (Ext F), IsFin (lazyVarianceRun P x0 xs) → ∀ x ∈ xs, IsFinite x) := by
  have hs : ∀ x0 : Ext F, IsFinite (sumRun id x0 xs) → IsFinite x0 ∧ ∀ x ∈ xs, IsFinite x := by
    intro x0 h
    exact foldl_fin IsFinite _ IsFinite (fun s a h => fin_add h) xs x0 h
  have hm : ∀ N, N ≠ 0 → IsFin (momentRun N x0 xs) → ∀ x ∈ xs, IsFinite x := by
    intro N hN h
    have h := (isFin_fdiv h).1
    refine (foldl_fin (fun s : MomentSt (Ext F) => IsFinite s.sum) (MomentSt.push N) IsFinite ?_ xs _ h).2
    intro s a h
    have := fin_add h
    exact ⟨this.1, fin_mpow hN this.2⟩
  refine ⟨hs x0, ?_, ?_, ?_, hm N hN, ?_⟩
  · intro h
    refine (foldl_fin (fun s : Kahan (Ext F) => IsFinite s.sum) (fun s a => s.step (id a)) IsFinite ?_ xs _ h).2
    intro s a h
    have := fin_add h
    exact ⟨this.1, (fin_sub this.2).1⟩
  · intro h
    have h := (isFin_fdiv h).1
    refine (foldl_fin (fun s : CountSum (Ext F) => IsFinite s.sum) (lazyMean x0).push IsFinite ?_ xs _ h).2
    exact fun s a h => fin_add h
  · intro h
    refine (foldl_fin (fun s : CountMean (Ext F) => IsFin s.mean) (immMean x0).push IsFinite ?_ xs _ h).2
    intro s a h
    obtain ⟨m, hm, h⟩ := isFin_bind (show IsFin (s.mean >>= _) from h)
    have := fin_add (isFin_fdiv h).1
    refine ⟨?_, this.2⟩
    rw [hm]
    exact isFin_val.2 (fin_mul this.1).1
  · intro P h
    obtain ⟨m, -, h⟩ := isFin_bind h
    obtain ⟨m2, h2, h⟩ := isFin_bind h
    have := fin_sub (isFin_val.1 h)
    exact hm 2 (by omega) (by rw [h2]; exact isFin_val.2 this.1)


theorem concat_of_length {X : Type} {xs : List X} (h : 2 ≤ xs.length) :
    ∃ ys y, xs = ys ++ [y] ∧ 1 ≤ ys.length := by
  have hne : xs ≠ [] := by
    intro h0
    rw [h0] at h
    simp at h
  refine ⟨xs.dropLast, xs.getLast hne, (List.dropLast_append_getLast hne).symm, ?_⟩
  rw [List.length_dropLast]
  omega

theorem fin_mean {P : MeanProvider (Ext F) (Ext F)} {x0 : Ext F} (hP : P = lazyMean x0 ∨ P = immMean x0)
    (xs : List (Ext F)) (h : IsFin (P.read (P.run xs))) : ∀ x ∈ xs, IsFinite x := by
  have := C76_finite x0 one_ne_zero xs
  rcases hP with rfl | rfl
  · exact this.2.2.1 h
  · exact this.2.2.2.1 h

/-- **C76** The same for the variance by recursion, the covariance and the kurtosis: if the result is finite, every
sample was (for the first two unless there is only one sample). -/
theorem C76_finite_second (x0 y0 : Ext F) (P Q : MeanProvider (Ext F) (Ext F)) (xs : List (Ext F))
    (ps : List (Ext F × Ext F)) :
    (P = lazyMean x0 ∨ P = immMean x0 → 2 ≤ xs.length → IsFin (varianceRun P 0 xs) → ∀ x ∈ xs, IsFinite x) ∧
    (P = lazyMean x0 ∨ P = immMean x0 → Q = lazyMean y0 ∨ Q = immMean y0 → 2 ≤ ps.length →
      IsFin (covarianceRun P Q 0 0 ps) → ∀ p ∈ ps, IsFinite p.1 ∧ IsFinite p.2) ∧
    (IsFin (kurtosisRun P xs) → ∀ x ∈ xs, IsFinite x) := by
  refine ⟨?_, ?_, ?_⟩
  · intro hP hl h
    obtain ⟨ys, y, rfl, hy⟩ := concat_of_length hl
    rw [varianceRun_concat, varianceStep, if_pos (by omega)] at h
    obtain ⟨m, hm, h⟩ := isFin_bind h
    obtain ⟨v, hv, h⟩ := isFin_bind h
    obtain ⟨a, ha, h⟩ := isFin_bind h
    obtain ⟨b, hb, h⟩ := isFin_bind h
    have h1 := (fin_add (isFin_val.1 h)).2
    have h2 := (isFin_fdiv (by rw [hb]; exact isFin_val.2 h1)).1
    have h3 := fin_sub (fin_mul h2).1
    exact fin_mean hP _ (by rw [hm]; exact isFin_val.2 h3.2)
  · intro hP hQ hl h
    obtain ⟨ys, y, rfl, hy⟩ := concat_of_length hl
    rw [covarianceRun_concat, covarianceStep, if_pos (by omega)] at h
    obtain ⟨c, hc, h⟩ := isFin_bind h
    obtain ⟨a, ha, h⟩ := isFin_bind h
    obtain ⟨my, hmy, h⟩ := isFin_bind h
    obtain ⟨mx, hmx, h⟩ := isFin_bind h
    obtain ⟨b, hb, h⟩ := isFin_bind h
    have h1 := (fin_add (isFin_val.1 h)).2
    have h2 := fin_mul (isFin_fdiv (by rw [hb]; exact isFin_val.2 h1)).1
    have hx := fin_mean hP _ (by rw [hmx]; exact isFin_val.2 (fin_sub h2.2).1)
    have hy := fin_mean hQ _ (by rw [hmy]; exact isFin_val.2 (fin_sub h2.1).1)
    exact fun p hp => ⟨hx _ (List.mem_map_of_mem hp), hy _ (List.mem_map_of_mem hp)⟩
  · intro h
    obtain ⟨m4, h4, h⟩ := isFin_bind h
    obtain ⟨m3, h3, h⟩ := isFin_bind h
    obtain ⟨m2, h2, h⟩ := isFin_bind h
    obtain ⟨m, hm, h⟩ := isFin_bind h
    obtain ⟨q, hq, h⟩ := isFin_bind h
    have h1 := (fin_sub (isFin_val.1 h)).1
    have h5 := (isFin_fdiv (by rw [hq]; exact isFin_val.2 h1)).1
    have h6 := (fin_sub (fin_add (fin_sub h5).1).1).1
    exact (C76_finite 0 (N := 4) (by omega) xs).2.2.2.2.1 (by rw [h4]; exact isFin_val.2 h6)

/-! ## NaN -/

theorem mpow_nan {N : ℕ} (hN : N ≠ 0) : mpow (nan : Ext F) N = nan := by
  induction N using Nat.strong_induction_on with
  | _ n ih =>
    rw [mpow]
    simp only [hN, dite_false]
    split_ifs with h1 h2
    · rfl
    · simp
    · rw [ih (n / 2) (by omega) (by omega)]
      simp

theorem foldl_absorb {A S : Type} (f : S → A → S) (P : S → Prop) (a : A) (h1 : ∀ s, P (f s a))
    (h2 : ∀ s b, P s → P (f s b)) (as : List A) (ha : a ∈ as) (s : S) : P (as.foldl f s) := by
  induction as generalizing s with
  | nil => simp at ha
  | cons b as ih =>
    rw [List.foldl_cons]
    by_cases hm : a ∈ as
    · exact ih hm _
    · have : a = b := by
        rcases List.mem_cons.1 ha with h | h
        · exact h
        · exact absurd h hm
      subst this
      have := h1 s
      clear ih ha hm h1
      generalize f s a = t at this
      induction as generalizing t with
      | nil => exact this
      | cons c as ih => exact ih _ (h2 _ _ this)

theorem fdiv_count {n : ℕ} (h : n ≠ 0) (a : Ext F) : fdiv a (n : Ext F) = .val (a / (n : Ext F)) := by
  rw [fdiv, if_neg (natCast_ne h)]

theorem immMean_val (x0 : Ext F) (xs : List (Ext F)) : ∃ m, ((immMean x0).run xs).mean = .val m := by
  induction xs using List.reverseRecOn with
  | nil => exact ⟨_, show fdiv x0 1 = .val _ by rw [fdiv, if_neg]; rw [one_def, zero_def]; simp⟩
  | append_singleton xs x ih =>
    obtain ⟨m, hm⟩ := ih
    rw [MeanProvider.run, List.foldl_append]
    change ((immMean x0).run xs).mean = _ at hm
    show ∃ m, immMeanStep (_ + 1) ((immMean x0).run xs).mean x = _
    rw [hm]
    exact ⟨_, fdiv_count (Nat.succ_ne_zero _) _⟩

/-- A number of samples less 1. -/
theorem natCast_pred {n : ℕ} (h : 2 ≤ n) :
    (∃ c : K, 1 ≤ c ∧ (n : Ext F) - 1 = fin c) ∨ (n : Ext F) - 1 = pinf := by
  have h1 : (2 : K) ≤ n := by exact_mod_cast h
  have h2 : 2 ≤ F.rd n := by
    have := F.mono h1
    rwa [F.two] at this
  rw [natCast_def, of]
  split_ifs with h3 h4
  · exact .inr rfl
  · have h5 : F.huge 1 = true := F.huge_mono _ _ (by linarith) h4
    rw [F.huge_one] at h5
    simp at h5
  · have h6 : 1 ≤ F.rd (F.rd n - 1) := one_le_rd (by linarith)
    show (_ ∨ of F (F.rd n - 1) = pinf)
    rw [one_def, sub_def, sub, of]
    split_ifs with h7 h8
    · exact .inr rfl
    · have h5 : F.huge 1 = true := F.huge_mono _ _ (by linarith) h8
      rw [F.huge_one] at h5
      simp at h5
    · exact .inl ⟨_, h6, rfl⟩

theorem fdiv_pred {n : ℕ} (h : 2 ≤ n) (a : Ext F) :
    fdiv a ((n : Ext F) - 1) = .val (a / ((n : Ext F) - 1)) := by
  rw [fdiv, if_neg]
  rw [zero_def]
  obtain ⟨c, hc, e⟩ | e := natCast_pred (F := F) h
  · rw [e]
    intro h
    have := Ext.fin.inj h
    linarith
  · rw [e]
    nofun

theorem lazyMean_cnt (x0 : Ext F) (xs : List (Ext F)) : ((lazyMean x0).run xs).cnt = xs.length := by
  have : ∀ (ys : List (Ext F)) (s : CountSum (Ext F)),
      (ys.foldl (lazyMean x0).push s : CountSum (Ext F)).cnt = s.cnt + ys.length := by
    intro ys
    induction ys with
    | nil => exact fun s => rfl
    | cons y ys ih =>
      intro s
      have := ih ((lazyMean x0).push s y)
      rw [List.length_cons]
      refine this.trans ?_
      show s.cnt + 1 + _ = _
      omega
  refine (this xs (lazyMean x0).init).trans ?_
  show 0 + _ = _
  omega

theorem mean_val {P : MeanProvider (Ext F) (Ext F)} {x0 : Ext F} (hP : P = lazyMean x0 ∨ P = immMean x0)
    {xs : List (Ext F)} (h : xs ≠ []) : ∃ m, P.read (P.run xs) = .val m := by
  rcases hP with rfl | rfl
  · refine ⟨((lazyMean x0).run xs).sum / (xs.length : Ext F), ?_⟩
    show fdiv _ _ = _
    rw [lazyMean_cnt, fdiv_count (by simpa using h)]
  · exact immMean_val x0 xs

theorem varianceRun_val {P : MeanProvider (Ext F) (Ext F)} {x0 : Ext F} (hP : P = lazyMean x0 ∨ P = immMean x0)
    (v0 : Ext F) (xs : List (Ext F)) : ∃ v, varianceRun P v0 xs = .val v := by
  induction xs using List.reverseRecOn with
  | nil => exact ⟨_, show fdiv v0 1 = .val _ by rw [fdiv, if_neg]; rw [one_def, zero_def]; simp⟩
  | append_singleton xs x ih =>
    obtain ⟨v, hv⟩ := ih
    obtain ⟨m, hm⟩ := mean_val hP (xs := xs ++ [x]) (by simp)
    rw [varianceRun_concat, varianceStep, hv, hm]
    split_ifs with h
    · simp only [Res.val_bind]
      rw [fdiv_count (Nat.succ_ne_zero _), fdiv_pred (by omega)]
      exact ⟨_, rfl⟩
    · exact ⟨_, rfl⟩

/-- **C76** For every floating point format: one NaN among the samples makes the sum, the compensated sum, the means,
the moments and the lazy variance NaN, and the variance by recursion if there are two samples. -/
theorem C76_nan (x0 v0 : Ext F) {N : ℕ} (hN : N ≠ 0) {xs : List (Ext F)} (h : nan ∈ xs) :
    sumRun id x0 xs = nan ∧
    (kahanRun id x0 xs).sum = nan ∧
    momentRun N x0 xs = .val nan ∧
    ∀ P, P = lazyMean x0 ∨ P = immMean x0 → P.read (P.run xs) = .val nan ∧
      lazyVarianceRun P v0 xs = .val nan ∧
      (2 ≤ xs.length → varianceRun P v0 xs = .val nan) := by
  have hne : xs.length ≠ 0 := by
    intro h0
    rw [List.length_eq_zero_iff] at h0
    simp [h0] at h
  have hM : ∀ N, N ≠ 0 → ∀ x0 : Ext F, momentRun N x0 xs = .val nan := by
    intro N hN x0
    have hc : ∀ (ys : List (Ext F)) (s : MomentSt (Ext F)), (ys.foldl (MomentSt.push N) s).cnt = s.cnt + ys.length := by
      intro ys
      induction ys with
      | nil => exact fun s => rfl
      | cons y ys ih =>
        intro s
        rw [List.foldl_cons, ih, List.length_cons]
        show s.cnt + 1 + _ = _
        omega
    have hs : (xs.foldl (MomentSt.push N) (MomentSt.init x0)).sum = nan := by
      refine foldl_absorb (MomentSt.push N) (fun s => s.sum = nan) nan ?_ ?_ xs h _
      · intro s
        show s.sum + mpow nan N = nan
        rw [mpow_nan hN, add_nan]
      · intro s b hs
        show s.sum + _ = nan
        rw [hs, nan_add]
    rw [momentRun, MomentSt.result, hs, hc, MomentSt.init, fdiv_count (by simpa using hne), nan_div]
  have hP : ∀ P : MeanProvider (Ext F) (Ext F), P = lazyMean x0 ∨ P = immMean x0 → P.read (P.run xs) = .val nan := by
    rintro P (rfl | rfl)
    · have hs : ((lazyMean x0).run xs).sum = nan := by
        refine foldl_absorb (lazyMean x0).push (fun s : CountSum (Ext F) => s.sum = nan) nan ?_ ?_ xs h _
        · intro s
          show s.sum + nan = nan
          exact add_nan _
        · intro s b hs
          show s.sum + b = nan
          rw [hs, nan_add]
      show fdiv ((lazyMean x0).run xs).sum _ = _
      rw [hs, lazyMean_cnt, fdiv_count hne, nan_div]
    · show ((immMean x0).run xs).mean = _
      clear hne hM
      induction xs using List.reverseRecOn with
      | nil => simp at h
      | append_singleton xs x ih =>
        obtain ⟨m, hm⟩ := immMean_val x0 xs
        rw [MeanProvider.run, List.foldl_append]
        show immMeanStep (_ + 1) ((immMean x0).run xs).mean x = _
        rcases List.mem_append.1 h with h | h
        · rw [ih h]
          show fdiv _ _ = _
          rw [fdiv_count (Nat.succ_ne_zero _)]
          simp
        · rw [List.mem_singleton] at h
          subst h
          rw [hm]
          show fdiv _ _ = _
          rw [fdiv_count (Nat.succ_ne_zero _)]
          simp
  refine ⟨?_, ?_, hM N hN x0, fun P hP' => ⟨hP P hP', ?_, ?_⟩⟩
  · exact foldl_absorb _ (fun s => s = nan) nan (fun s => add_nan _) (fun s b hs => by rw [hs]; exact nan_add _) xs h x0
  · refine foldl_absorb _ (fun s : Kahan (Ext F) => s.sum = nan) nan ?_ ?_ xs h _
    · intro s
      show s.sum + (nan - _) = nan
      simp
    · intro s b hs
      show s.sum + _ = nan
      rw [hs, nan_add]
  · rw [lazyVarianceRun, hP P hP', hM 2 (by omega)]
    simp [lazyVarianceResult]
  · intro hl
    obtain ⟨ys, y, rfl, hy⟩ := concat_of_length hl
    obtain ⟨v, hv⟩ := varianceRun_val hP' v0 ys
    rw [varianceRun_concat, varianceStep, if_pos (by omega), hP P hP', hv]
    simp only [Res.val_bind]
    rw [fdiv_count (Nat.succ_ne_zero _), fdiv_pred (by omega)]
    simp

/-- **C76** For every format: when the compensated sum is infinite, the next sample makes it NaN for ever, whatever it
is (the sum without compensation stays infinite). -/
theorem C76_kahan (x0 : Ext F) (xs : List (Ext F)) (x : Ext F) (ys : List (Ext F))
    (h : ¬ IsFinite (kahanRun id x0 xs).sum) (hne : xs ≠ []) :
    (kahanRun id x0 (xs ++ x :: ys)).sum = nan := by
  have hx : ∀ (s : Kahan (Ext F)) (x : Ext F), ¬ IsFinite (s.step x).sum →
      ((s.step x).sum = nan ∨ ∀ y, ((s.step x).step y).sum = nan) := by
    intro s x h
    have e1 : (s.step x).sum = s.sum + (x - s.compensation) := rfl
    have e2 : (s.step x).compensation = s.sum + (x - s.compensation) - s.sum - (x - s.compensation) := rfl
    have e3 : ∀ y, ((s.step x).step y).sum = (s.step x).sum + (y - (s.step x).compensation) := fun _ => rfl
    simp only [e3, e2, e1] at h ⊢
    generalize x - s.compensation = t at h ⊢
    generalize s.sum = u at h ⊢
    rw [or_iff_not_imp_left]
    intro hn y
    have h' : u + t = pinf ∨ u + t = ninf := by
      generalize u + t = r at h hn
      cases r <;> simp_all
    rcases h' with h' | h' <;> rw [h'] <;> cases u <;> cases t <;> cases y <;> rfl
  have habs : ∀ (ys : List (Ext F)) (s : Kahan (Ext F)), s.sum = nan →
      (ys.foldl (fun s a => s.step (id a)) s).sum = nan := by
    intro ys
    induction ys with
    | nil => exact fun s h => h
    | cons y ys ih =>
      intro s h
      refine ih _ ?_
      show s.sum + _ = nan
      rw [h, nan_add]
  obtain ⟨zs, z, rfl⟩ : ∃ zs z, xs = zs ++ [z] :=
    ⟨xs.dropLast, xs.getLast hne, (List.dropLast_append_getLast hne).symm⟩
  have e : kahanRun id x0 (zs ++ [z]) = (kahanRun id x0 zs).step z := by
    rw [kahanRun, List.foldl_append]
    rfl
  rw [e] at h
  have e2 : (kahanRun id x0 (zs ++ [z] ++ x :: ys))
      = ys.foldl (fun s a => s.step (id a)) (((kahanRun id x0 zs).step z).step x) := by
    rw [kahanRun, List.foldl_append, List.foldl_append]
    rfl
  rw [e2]
  refine habs _ _ ?_
  rcases hx _ _ h with h | h
  · show Kahan.sum _ + _ = nan
    rw [h, nan_add]
  · exact h x

/-! ## Exact arithmetic with infinities and NaN -/

end

section
variable {K : Type} [Field K] [LinearOrder K] [IsStrictOrderedRing K]

/-- Exact arithmetic extended by infinities and NaN. -/
abbrev Ex (K : Type) [Field K] [LinearOrder K] := Ext (Fmt.exact K)

/-- The finite numbers of a stream. -/
def Spec.finites (xs : List (Ex K)) : List K :=
  xs.filterMap fun
    | fin a => some a
    | _ => none

/-- The sum of a stream: NaN if there is a NaN or both infinities, else infinite if there is an infinity, else the
sum of the numbers. -/
def Spec.extSum (xs : List (Ex K)) : Ex K :=
  if nan ∈ xs ∨ pinf ∈ xs ∧ ninf ∈ xs then nan else if pinf ∈ xs then pinf else if ninf ∈ xs then ninf
    else fin (Spec.finites xs).sum

/-- The mean likewise. -/
def Spec.extMean (xs : List (Ex K)) : Ex K :=
  match Spec.extSum xs with
  | fin s => fin (s / xs.length)
  | e => e

namespace Ext

@[simp] theorem of_exact (x : K) : of (Fmt.exact K) x = fin x := by simp [of, Fmt.exact]

@[simp] theorem fin_add_fin (a b : K) : (fin a + fin b : Ex K) = fin (a + b) := by rw [add_def, add, of_exact]
@[simp] theorem fin_sub_fin (a b : K) : (fin a - fin b : Ex K) = fin (a - b) := by rw [sub_def, sub, of_exact]
@[simp] theorem fin_mul_fin (a b : K) : (fin a * fin b : Ex K) = fin (a * b) := by rw [mul_def, mul, of_exact]
theorem fin_div_fin (a : K) {b : K} (h : b ≠ 0) : (fin a / fin b : Ex K) = fin (a / b) := by
  rw [div_def, div, if_neg h, of_exact]
@[simp] theorem natCast_exact (n : ℕ) : ((n : ℕ) : Ex K) = fin (n : K) := by rw [natCast_def, of_exact]

end Ext

open Spec

theorem extSum_concat (xs : List (Ex K)) (x : Ex K) : extSum (xs ++ [x]) = extSum xs + x := by
  cases x <;> by_cases h1 : nan ∈ xs <;> by_cases h2 : pinf ∈ xs <;> by_cases h3 : ninf ∈ xs <;>
    simp [extSum, h1, h2, h3, finites] <;> rfl

theorem extSum_run (xs : List (Ex K)) : sumRun id (0 : Ex K) xs = extSum xs := by
  induction xs using List.reverseRecOn with
  | nil => simp [sumRun, extSum, finites]; rfl
  | append_singleton xs x ih => rw [extSum_concat, ← ih, sumRun, sumRun, List.foldl_append]; rfl

/-- A non-finite number keeps its value when divided by a positive one. -/
theorem extMean_div (xs : List (Ex K)) (h : xs ≠ []) : extSum xs / (xs.length : Ex K) = extMean xs := by
  have hn : (0 : K) < xs.length := by exact_mod_cast List.length_pos_of_ne_nil h
  rw [extMean, natCast_exact]
  generalize extSum xs = e
  cases e with
  | fin s => exact fin_div_fin s hn.ne'
  | pinf => exact if_neg hn.not_gt
  | ninf => exact if_neg hn.not_gt
  | nan => rfl

theorem lazyMean_sum (xs : List (Ex K)) : ((lazyMean (0 : Ex K)).run xs).sum = extSum xs := by
  induction xs using List.reverseRecOn with
  | nil => simp [extSum, finites]; rfl
  | append_singleton xs x ih => rw [extSum_concat, ← ih, MeanProvider.run, List.foldl_append]; rfl

theorem lazyMean_ext {xs : List (Ex K)} (h : xs ≠ []) :
    (lazyMean (0 : Ex K)).read ((lazyMean 0).run xs) = .val (extMean xs) := by
  show fdiv _ _ = _
  rw [lazyMean_sum, lazyMean_cnt, fdiv_count (by simpa using h), extMean_div xs h]

theorem immMean_cnt (xs : List (Ex K)) : ((immMean (0 : Ex K)).run xs).cnt = xs.length := by
  induction xs using List.reverseRecOn with
  | nil => rfl
  | append_singleton xs x ih =>
    rw [MeanProvider.run, List.foldl_append, List.length_append]
    exact congrArg (· + 1) ih

theorem immMean_ext {xs : List (Ex K)} (h : xs ≠ []) :
    (immMean (0 : Ex K)).read ((immMean 0).run xs) = .val (extMean xs) := by
  show ((immMean (0 : Ex K)).run xs).mean = _
  induction xs using List.reverseRecOn with
  | nil => simp at h
  | append_singleton xs x ih =>
    have hc := immMean_cnt xs
    rw [MeanProvider.run, List.foldl_append]
    show immMeanStep (((immMean (0 : Ex K)).run xs).cnt + 1) ((immMean (0 : Ex K)).run xs).mean x = _
    rw [hc, ← extMean_div _ h, extSum_concat, List.length_append, List.length_singleton]
    have key : ∃ m, ((immMean (0 : Ex K)).run xs).mean = .val m ∧
        m * (((xs.length + 1 : ℕ) : Ex K) - 1) = extSum xs := by
      rw [natCast_exact, one_def, fin_sub_fin, Nat.cast_add, Nat.cast_one, add_sub_cancel_right]
      by_cases hx : xs = []
      · subst hx
        refine ⟨0, ?_, ?_⟩
        · show fdiv 0 1 = _
          rw [fdiv, if_neg (by rw [one_def, zero_def]; simp), zero_def, one_def, fin_div_fin _ one_ne_zero, zero_div]
        · rw [zero_def, fin_mul_fin]
          simp [extSum, finites]
      · refine ⟨_, ih hx, ?_⟩
        have hn : (0 : K) < xs.length := by exact_mod_cast List.length_pos_of_ne_nil hx
        rw [extMean]
        generalize extSum xs = e
        cases e with
        | fin s => simp only [fin_mul_fin]; rw [div_mul_cancel₀ _ hn.ne']
        | pinf => exact if_pos hn
        | ninf =>
          show infSign _ = _
          rw [infSign, if_neg (by linarith), if_pos (by linarith)]
        | nan => rfl
    obtain ⟨m, hm, e⟩ := key
    rw [hm]
    show fdiv (_ * (_ - 1) + x) _ = _
    rw [e, fdiv_count (Nat.succ_ne_zero _)]

/-- **C76** In exact arithmetic with infinities and NaN the sum and both means are what the extended arithmetic says,
for every stream and in every order. -/
theorem C76_mean {xs : List (Ex K)} (h : xs ≠ []) :
    sumRun id (0 : Ex K) xs = extSum xs ∧
    (lazyMean (0 : Ex K)).read ((lazyMean 0).run xs) = .val (extMean xs) ∧
    (immMean (0 : Ex K)).read ((immMean 0).run xs) = .val (extMean xs) :=
  ⟨extSum_run xs, lazyMean_ext h, immMean_ext h⟩

/-! ### Finite streams: nothing changes -/

theorem finites_map (xs : List K) : finites (xs.map (fin : K → Ex K)) = xs := by
  induction xs with
  | nil => rfl
  | cons x xs ih =>
    rw [List.map_cons]
    show x :: finites (xs.map (fin : K → Ex K)) = _
    rw [ih]

theorem map_finites {xs : List (Ex K)} (h : ∀ x ∈ xs, IsFinite x) : (finites xs).map fin = xs := by
  induction xs with
  | nil => rfl
  | cons x xs ih =>
    cases x with
    | fin a =>
      show fin a :: (finites xs).map fin = _
      rw [ih fun y hy => h y (by simp [hy])]
    | _ => exact absurd (h _ (List.mem_cons_self ..)) id

theorem extSum_fin (xs : List K) : extSum (xs.map (fin : K → Ex K)) = fin xs.sum := by
  have : ∀ e : Ex K, ¬ IsFinite e → e ∉ xs.map (fin : K → Ex K) := by
    intro e he h
    obtain ⟨a, -, rfl⟩ := List.mem_map.1 h
    exact he trivial
  rw [extSum, if_neg, if_neg (this _ id), if_neg (this _ id), finites_map]
  exact fun h => h.elim (this _ id) fun h => this _ id h.1

theorem extMean_fin (xs : List K) : extMean (xs.map (fin : K → Ex K)) = fin (Spec.mean xs) := by
  rw [extMean, extSum_fin, List.length_map, Spec.mean]

theorem mpow_fin (x : K) (N : ℕ) : mpow (fin x : Ex K) N = fin (x ^ N) := by
  rw [← mpow_eq]
  induction N using Nat.strong_induction_on with
  | _ n ih =>
    rw [mpow.eq_def (fin x) n, mpow.eq_def x n]
    split_ifs with h0 h1 h2
    · rfl
    · rfl
    · simp only [ih (n / 2) (by omega), fin_mul_fin]
    · simp only [ih (n / 2) (by omega), fin_mul_fin]

theorem mean_ext {P : MeanProvider (Ex K) (Ex K)} (hP : P = lazyMean 0 ∨ P = immMean 0) {xs : List (Ex K)}
    (h : xs ≠ []) : P.read (P.run xs) = .val (extMean xs) := by
  rcases hP with rfl | rfl
  · exact lazyMean_ext h
  · exact immMean_ext h

theorem moment_ext {N : ℕ} {xs : List (Ex K)} (h : xs ≠ []) :
    momentRun N 0 xs = .val (extMean (xs.map (mpow · N))) := by
  have hs : ∀ xs : List (Ex K), xs.foldl (MomentSt.push N) (MomentSt.init 0)
      = ⟨xs.length, extSum (xs.map (mpow · N))⟩ := by
    intro xs
    induction xs using List.reverseRecOn with
    | nil => simp [extSum, finites, MomentSt.init]; rfl
    | append_singleton xs x ih =>
      rw [List.foldl_append, ih, List.map_append, List.map_singleton, extSum_concat, List.length_append]
      rfl
  rw [momentRun, hs, MomentSt.result, fdiv_count (by simpa using h), ← extMean_div _ (by simpa using h),
    List.length_map]

theorem variance_fin {P : MeanProvider (Ex K) (Ex K)} (hP : P = lazyMean 0 ∨ P = immMean 0) (xs : List K) :
    varianceRun P 0 (xs.map fin) = fin <$> varianceRun (lazyMean 0) 0 xs := by
  induction xs using List.reverseRecOn with
  | nil =>
    show fdiv (0 : Ex K) 1 = fin <$> fdiv 0 1
    rw [fdiv_one, fdiv, if_neg (by rw [one_def, zero_def]; simp), zero_def, one_def, fin_div_fin _ one_ne_zero,
      zero_div]
    rfl
  | append_singleton xs x ih =>
    have hm := mean_ext hP (xs := (xs ++ [x]).map fin) (by simp)
    rw [extMean_fin] at hm
    rw [varianceRun_concat, lazyMean_correct _ (by simp)]
    rw [List.map_append, List.map_singleton] at hm ⊢
    rw [varianceRun_concat, hm, ih, List.length_map, varianceStep, varianceStep]
    split_ifs with h
    · by_cases hx : xs = []
      · subst hx
        simp at h
      · rw [C06_variance _ lazyMean_correct _ hx]
        have h1 : ((xs.length + 1 : ℕ) : K) ≠ 0 := by exact_mod_cast Nat.succ_ne_zero xs.length
        have h2 : ((xs.length + 1 : ℕ) : K) - 1 ≠ 0 := by
          rw [Nat.cast_add, Nat.cast_one, add_sub_cancel_right]
          exact_mod_cast (List.length_pos_of_ne_nil hx).ne'
        simp only [Res.val_bind, Res.map_val]
        rw [fdiv_count (Nat.succ_ne_zero _), fdiv_pred (by omega), fdiv_ne h1, fdiv_ne h2, natCast_exact, one_def]
        simp only [fin_sub_fin, fin_mul_fin, Res.val_bind, fin_div_fin _ h1, fin_div_fin _ h2, fin_add_fin,
          Res.pure_eq, Res.map_val]
    · rfl

/-- **C76** On finite samples everything is as in exact arithmetic without infinities. -/
theorem C76_conservative {xs : List K} (h : xs ≠ []) (N : ℕ) (P : MeanProvider (Ex K) (Ex K))
    (hP : P = lazyMean 0 ∨ P = immMean 0) :
    sumRun id (0 : Ex K) (xs.map fin) = fin xs.sum ∧
    P.read (P.run (xs.map fin)) = .val (fin (Spec.mean xs)) ∧
    momentRun N 0 (xs.map (fin : K → Ex K)) = .val (fin (Spec.rawMoment N xs)) ∧
    lazyVarianceRun P 0 (xs.map fin) = .val (fin (Spec.variance xs)) ∧
    varianceRun P 0 (xs.map fin) = .val (fin (Spec.variance xs)) := by
  have hne : xs.map (fin : K → Ex K) ≠ [] := by simpa using h
  have hm : ∀ N, momentRun N 0 (xs.map (fin : K → Ex K)) = .val (fin (Spec.rawMoment N xs)) := by
    intro N
    have : (xs.map (fin : K → Ex K)).map (mpow · N) = (xs.map (· ^ N)).map fin := by
      rw [List.map_map, List.map_map]
      exact List.map_congr_left fun x _ => mpow_fin x N
    rw [moment_ext hne, this, extMean_fin, Spec.rawMoment, Spec.mean, List.length_map]
  have hmean : P.read (P.run (xs.map fin)) = .val (fin (Spec.mean xs)) := by rw [mean_ext hP hne, extMean_fin]
  refine ⟨by rw [extSum_run, extSum_fin], hmean, hm N, ?_, ?_⟩
  · rw [lazyVarianceRun, hm, hmean]
    have := C06_lazy_variance _ lazyMean_correct xs h
    rw [lazyVarianceRun, momentRun_raw 2 xs h, lazyMean_correct xs h] at this
    simp only [lazyVarianceResult, Res.val_bind, Res.pure_eq, Res.val.injEq] at this
    simp only [lazyVarianceResult, Res.val_bind, Res.pure_eq, fin_mul_fin, fin_sub_fin, this]
  · rw [variance_fin hP, C06_variance _ lazyMean_correct _ h]
    rfl

/-! ### The variances of streams with infinities and NaN -/

/-- **C76** The lazy variance is NaN as soon as one sample is not finite. -/
theorem C76_lazy_variance {xs : List (Ex K)} (P : MeanProvider (Ex K) (Ex K)) (hP : P = lazyMean 0 ∨ P = immMean 0)
    {x : Ex K} (hx : x ∈ xs) (hf : ¬ IsFinite x) : lazyVarianceRun P 0 xs = .val nan := by
  by_cases hn : nan ∈ xs
  · exact ((C76_nan 0 0 one_ne_zero hn).2.2.2 P hP).2.1
  have hne : xs ≠ [] := List.ne_nil_of_mem hx
  have hsq : ∀ y : Ex K, mpow y 2 = y * y := by
    intro y
    rw [mpow, mpow]
    simp
  have h1 : extSum (xs.map (mpow · 2)) = pinf := by
    have a1 : nan ∉ xs.map (mpow · 2) := by
      intro h
      obtain ⟨y, hy, e⟩ := List.mem_map.1 h
      simp only [hsq] at e
      cases y with
      | fin a => rw [fin_mul_fin] at e; simp at e
      | pinf => exact absurd e nofun
      | ninf => exact absurd e nofun
      | nan => exact hn hy
    have a2 : ninf ∉ xs.map (mpow · 2) := by
      intro h
      obtain ⟨y, hy, e⟩ := List.mem_map.1 h
      simp only [hsq] at e
      cases y with
      | fin a => rw [fin_mul_fin] at e; simp at e
      | pinf => exact absurd e nofun
      | ninf => exact absurd e nofun
      | nan => exact hn hy
    have a3 : pinf ∈ xs.map (mpow · 2) := by
      refine List.mem_map.2 ⟨x, hx, ?_⟩
      rw [hsq]
      cases x with
      | fin a => exact absurd trivial hf
      | pinf => rfl
      | ninf => rfl
      | nan => exact absurd hx hn
    rw [extSum, if_neg (by simp [a1, a2]), if_pos a3]
  have h2 : ¬ IsFinite (extMean xs) := by
    intro h
    exact hf ((C76_finite (0 : Ex K) one_ne_zero xs).2.2.1 (by rw [lazyMean_ext hne]; exact isFin_val.2 h) x hx)
  rw [lazyVarianceRun, moment_ext hne, mean_ext hP hne, extMean, h1]
  generalize extMean xs = m at h2
  cases m with
  | fin a => exact absurd trivial h2
  | _ => rfl

/-- The value of the variance by recursion. -/
def Spec.extVariance (xs : List (Ex K)) : Ex K :=
  if ∀ x ∈ xs, IsFinite x then fin (Spec.variance (finites xs))
  else if xs.length = 1 then fin 0
  else if (xs.head? = some pinf ∨ xs.head? = some ninf) ∧ ∀ x ∈ xs.tail, IsFinite x then pinf
  else nan

theorem extMean_nonfinite {ys : List (Ex K)} {x : Ex K} (hx : ¬ IsFinite x) : x - extMean (ys ++ [x]) = nan := by
  rw [extMean, extSum_concat]
  generalize extSum ys = e
  cases x with
  | fin a => exact absurd trivial hx
  | _ => cases e <;> rfl

theorem extSum_not_fin {ys : List (Ex K)} (h : ¬ ∀ x ∈ ys, IsFinite x) : ¬ IsFinite (extSum ys) := by
  intro h'
  rw [← extSum_run] at h'
  exact h ((C76_finite (0 : Ex K) one_ne_zero ys).1 h').2

theorem extMean_finite {ys : List (Ex K)} (h : ¬ ∀ x ∈ ys, IsFinite x) (a : K) :
    extMean (ys ++ [fin a]) = extSum ys := by
  have h1 := extSum_not_fin h
  rw [extMean, extSum_concat]
  generalize extSum ys = e at h1
  cases e with
  | fin a => exact absurd trivial h1
  | _ => rfl

/-- **C76** The variance by recursion, for every stream: NaN as soon as there is a second sample and one is not finite,
with two exceptions.  If only the first sample is infinite it is infinite; if there is only one sample it is 0, even if
this sample is NaN. -/
theorem C76_variance {xs : List (Ex K)} (P : MeanProvider (Ex K) (Ex K)) (hP : P = lazyMean 0 ∨ P = immMean 0)
    (hne : xs ≠ []) : varianceRun P 0 xs = .val (extVariance xs) := by
  induction xs using List.reverseRecOn with
  | nil => simp at hne
  | append_singleton ys x ih =>
    by_cases hall : ∀ z ∈ ys ++ [x], IsFinite z
    · rw [extVariance, if_pos hall]
      have := (C76_conservative (xs := finites (ys ++ [x])) (by
        intro h0
        have := map_finites hall
        rw [h0] at this
        simp at this) 1 P hP).2.2.2.2
      rwa [map_finites hall] at this
    by_cases hys : ys = []
    · subst hys
      rw [extVariance, if_neg hall, if_pos (by simp), varianceRun_concat, varianceStep, if_neg (by simp)]
      show fdiv (0 : Ex K) 1 = _
      rw [fdiv, if_neg (by rw [one_def, zero_def]; simp), zero_def, one_def, fin_div_fin _ one_ne_zero, zero_div]
    have hl : 2 ≤ ys.length + 1 := by
      have := List.length_pos_of_ne_nil hys
      omega
    have hn : (0 : K) < (ys.length : K) := by exact_mod_cast List.length_pos_of_ne_nil hys
    rw [extVariance, if_neg hall, if_neg (by rw [List.length_append, List.length_singleton]; omega), varianceRun_concat,
      varianceStep, if_pos (by omega), mean_ext hP (by simp), ih hys]
    simp only [Res.val_bind]
    rw [fdiv_count (Nat.succ_ne_zero _), fdiv_pred hl, natCast_exact, one_def, fin_sub_fin, Nat.cast_add, Nat.cast_one,
      add_sub_cancel_right]
    simp only [Res.val_bind, Res.pure_eq, Res.val.injEq]
    obtain ⟨y, t, rfl⟩ := List.exists_cons_of_ne_nil hys
    rw [List.cons_append, List.head?_cons, List.tail_cons, ← List.cons_append]
    by_cases hx : IsFinite x
    · obtain ⟨a, rfl⟩ := fin_iff.1 hx
      have hy : ¬ ∀ z ∈ y :: t, IsFinite z := by
        intro h
        refine hall fun z hz => ?_
        rcases List.mem_append.1 hz with hz | hz
        · exact h z hz
        · rw [List.mem_singleton.1 hz]
          trivial
      rw [extMean_finite hy, extVariance, if_neg hy, List.head?_cons, List.tail_cons]
      have hcond : ((some y = some (pinf : Ex K) ∨ some y = some ninf) ∧ ∀ z ∈ t ++ [fin a], IsFinite z) ↔
          ((some y = some (pinf : Ex K) ∨ some y = some ninf) ∧ ∀ z ∈ t, IsFinite z) := by
        refine and_congr_right fun _ => ⟨fun h z hz => h z (by simp [hz]), fun h z hz => ?_⟩
        rcases List.mem_append.1 hz with hz | hz
        · exact h z hz
        · rw [List.mem_singleton.1 hz]
          trivial
      rw [if_congr hcond rfl rfl]
      have hn1 : ¬ ((((y :: t).length : ℕ) : K) + 1 < 0) := by linarith
      have hinf : ∀ v : Ex K, (v = fin 0 ∨ v = pinf) → ∀ e : Ex K, e = pinf ∨ e = ninf →
          v * fin ((y :: t).length : K) / fin (((y :: t).length : K) + 1)
            + (fin a - e) * (fin a - e) / fin ((y :: t).length : K) = pinf := by
        intro v hv e he
        have h1 : (fin a - e) * (fin a - e) = (pinf : Ex K) := by rcases he with rfl | rfl <;> rfl
        have h2 : (pinf : Ex K) / fin ((y :: t).length : K) = pinf := by
          rw [div_def, div, if_neg hn.not_gt]
        have h3 : v * fin ((y :: t).length : K) / fin (((y :: t).length : K) + 1) = fin 0 ∨
            v * fin ((y :: t).length : K) / fin (((y :: t).length : K) + 1) = pinf := by
          rcases hv with rfl | rfl
          · left
            rw [fin_mul_fin, fin_div_fin _ (by linarith), zero_mul, zero_div]
          · right
            have : (pinf : Ex K) * fin ((y :: t).length : K) = pinf := by
              rw [mul_def, mul, infSign, if_pos hn]
            rw [this, div_def, div, if_neg hn1]
        rw [h1, h2]
        rcases h3 with h3 | h3 <;> rw [h3] <;> rfl
      by_cases ht : ∀ z ∈ t, IsFinite z
      · have hy' : ¬ IsFinite y := by
          intro h
          refine hy fun z hz => ?_
          rcases List.mem_cons.1 hz with rfl | hz
          · exact h
          · exact ht z hz
        have hm : ∀ e : Ex K, ¬ IsFinite e → e ∉ t := fun e he h => he (ht e h)
        have hs : extSum (y :: t) = y := by
          rw [extSum]
          cases y with
          | fin a => exact absurd trivial hy'
          | _ => simp [hm pinf id, hm ninf id, hm nan id]
        rw [hs]
        cases y with
        | fin a => exact absurd trivial hy'
        | nan => simp
        | pinf =>
          have hc : (some (pinf : Ex K) = some pinf ∨ some (pinf : Ex K) = some ninf) ∧ ∀ z ∈ t, IsFinite z :=
            ⟨.inl rfl, ht⟩
          rw [if_pos hc]
          refine hinf _ ?_ _ (.inl rfl)
          split_ifs <;> simp
        | ninf =>
          have hc : (some (ninf : Ex K) = some pinf ∨ some (ninf : Ex K) = some ninf) ∧ ∀ z ∈ t, IsFinite z :=
            ⟨.inr rfl, ht⟩
          rw [if_pos hc]
          refine hinf _ ?_ _ (.inr rfl)
          split_ifs <;> simp
      · have hc : ¬ ((some y = some (pinf : Ex K) ∨ some y = some ninf) ∧ ∀ z ∈ t, IsFinite z) := fun h => ht h.2
        rw [if_neg hc, if_neg]
        · simp
        · intro h
          rw [List.length_cons] at h
          have : t = [] := List.length_eq_zero_iff.1 (by omega)
          subst this
          simp at ht
    · rw [extMean_nonfinite hx, if_neg]
      · simp
      · exact fun h => hx (h.2 x (by simp))

/-! ### Rolling statistics -/

theorem extSum_cons_fin (a : K) (l : List (Ex K)) : extSum (fin a :: l) - fin a = extSum l := by
  by_cases h1 : nan ∈ l <;> by_cases h2 : pinf ∈ l <;> by_cases h3 : ninf ∈ l <;>
    simp [extSum, h1, h2, h3, finites] <;> rfl

theorem extSum_mem {e : Ex K} (he : ¬ IsFinite e) {l : List (Ex K)} (h : e ∈ l) : extSum l - e = nan := by
  cases e with
  | fin a => exact absurd trivial he
  | pinf =>
    by_cases h1 : nan ∈ l <;> by_cases h3 : ninf ∈ l <;> (simp [extSum, h1, h, h3]; try rfl)
  | ninf =>
    by_cases h1 : nan ∈ l <;> by_cases h3 : pinf ∈ l <;> (simp [extSum, h1, h, h3]; try rfl)
  | nan => simp

theorem sub_add_fin (a b : Ex K) (c : K) : a - fin c + b = a + b - fin c := by
  cases a <;> cases b <;> first
    | rfl
    | (simp only [fin_sub_fin, fin_add_fin]; congr 1; ring)

/-- The sum over the window of `g`, NaN if a sample that has left the window was not finite. -/
def Spec.rollExt (N : ℕ) (g : Ex K → Ex K) (xs : List (Ex K)) : Ex K :=
  if ∀ x ∈ xs.take (xs.length - N), IsFinite x then extSum ((Spec.lastN N xs).map g) else nan

theorem rollExt_concat (N : ℕ) (g : Ex K → Ex K) (hg : ∀ x, IsFinite (g x) ↔ IsFinite x) (xs : List (Ex K)) (x : Ex K) :
    let b : Ring (Ex K) := ⟨N + 1, Spec.lastN (N + 1) (xs ++ [x])⟩
    (do
      let s ← (if b.full then (do let f ← b.front; return rollExt N g xs - g f) else (return rollExt N g xs) : Res (Ex K))
      return s + g x) = .val (rollExt N g (xs ++ [x])) := by
  intro b
  have hb : b = nextRing N (Spec.lastN N xs) x := by
    show (⟨N + 1, Spec.lastN (N + 1) (xs ++ [x])⟩ : Ring (Ex K)) = _
    rw [lastN_snoc_succ]
    rfl
  have hw : Spec.lastN N (xs ++ [x]) = nextWin N (Spec.lastN N xs) x := lastN_snoc N xs x
  rw [hb, nextRing_full]
  by_cases h : (Spec.lastN N xs).length = N
  · obtain ⟨f, hf, hs⟩ := full_split (x := x) h
    have hgone : (xs ++ [x]).take ((xs ++ [x]).length - N) = xs.take (xs.length - N) ++ [f] := by
      have hN : N ≤ xs.length := by
        rw [lastN_length] at h
        omega
      have e : xs ++ [x] = xs.take (xs.length - N) ++ f :: nextWin N (Spec.lastN N xs) x := by
        rw [← hs, ← List.append_assoc, Spec.lastN, List.take_append_drop]
      have hl : (xs.take (xs.length - N) ++ [f]).length = (xs ++ [x]).length - N := by
        rw [List.length_append, List.length_append, List.length_take]
        simp only [List.length_singleton]
        omega
      rw [← hl]
      conv_lhs => rw [e]
      exact (congrArg _ (List.append_cons ..)).trans (List.take_left' rfl)
    simp only [h, decide_true, if_true, hf, Res.val_bind, Res.pure_eq, Res.val.injEq]
    rw [rollExt, rollExt, hgone, hw]
    by_cases ha : ∀ z ∈ xs.take (xs.length - N), IsFinite z
    · rw [if_pos ha]
      by_cases hff : IsFinite f
      · rw [if_pos (by
          intro z hz
          rcases List.mem_append.1 hz with hz | hz
          · exact ha z hz
          · rwa [List.mem_singleton.1 hz])]
        obtain ⟨a, e⟩ := fin_iff.1 ((hg f).2 hff)
        rw [e, sub_add_fin, ← extSum_concat]
        have : (Spec.lastN N xs).map g ++ [g x] = fin a :: (nextWin N (Spec.lastN N xs) x).map g := by
          rw [← e, ← List.map_cons, ← hs, List.map_append, List.map_singleton]
        rw [this, extSum_cons_fin]
      · rw [if_neg (fun h => hff (h f (by simp)))]
        have hgf : ¬ IsFinite (g f) := fun h => hff ((hg f).1 h)
        have hm : f ∈ Spec.lastN N xs ++ [x] := by rw [hs]; simp
        rcases List.mem_append.1 hm with hm | hm
        · rw [extSum_mem hgf (List.mem_map_of_mem hm), nan_add]
        · rw [List.mem_singleton] at hm
          subst hm
          generalize extSum ((Spec.lastN N xs).map g) = e
          generalize g f = u at hgf
          cases u with
          | fin a => exact absurd trivial hgf
          | _ => cases e <;> rfl
    · rw [if_neg ha, if_neg]
      · simp
      · exact fun h => ha fun z hz => h z (by simp [hz])
  · have hlen : xs.length < N := by
      rw [lastN_length] at h
      omega
    simp only [h, decide_false, Bool.false_eq_true, if_false, Res.pure_eq, Res.val_bind, Res.val.injEq]
    rw [rollExt, rollExt, hw, nextWin, if_neg h, List.length_append, List.length_singleton,
      Nat.sub_eq_zero_of_le (by omega), Nat.sub_eq_zero_of_le (by omega), List.map_append, List.map_singleton,
      extSum_concat]
    simp

theorem fin_mpow_iff {x : Ex K} {M : ℕ} (hM : M ≠ 0) : IsFinite (mpow x M) ↔ IsFinite x := by
  refine ⟨fin_mpow hM, fun h => ?_⟩
  obtain ⟨a, rfl⟩ := fin_iff.1 h
  rw [mpow_fin]
  trivial

theorem roll_window (kind : RollMeanKind) (N : ℕ) (x0 : Ex K) (xs : List (Ex K)) :
    (rollRun kind N x0 xs).b = ⟨N + 1, Spec.lastN (N + 1) xs⟩ := by
  rw [← window_run]
  induction xs using List.reverseRecOn with
  | nil => rfl
  | append_singleton xs x ih =>
    rw [rollRun, List.foldl_append, List.foldl_append, ← ih]
    rfl

/-- **C76** While only finite samples have left the window, the rolling sum and the rolling moments are those of the
window, infinities and NaN included; from the moment a sample that is not finite leaves the window, they are NaN for
ever. -/
theorem C76_rolling (kind : RollMeanKind) (N : ℕ) (xs : List (Ex K)) :
    ((∀ x ∈ xs.take (xs.length - N), IsFinite x) →
      (rollRun kind N 0 xs).sum = .val (extSum (Spec.lastN N xs)) ∧
      ∀ M, M ≠ 0 → (rollRun kind N 0 xs).moment M = .val (extSum ((Spec.lastN N xs).map (mpow · M)))) ∧
    ((∃ x ∈ xs.take (xs.length - N), ¬ IsFinite x) →
      (rollRun kind N 0 xs).sum = .val nan ∧ ∀ M, M ≠ 0 → (rollRun kind N 0 xs).moment M = .val nan) := by
  have key : (rollRun kind N 0 xs).sum = .val (rollExt N id xs) ∧
      ∀ M, M ≠ 0 → (rollRun kind N 0 xs).moment M = .val (rollExt N (mpow · M) xs) := by
    induction xs using List.reverseRecOn with
    | nil => simp [rollExt, Spec.lastN, extSum, finites, rollRun, RollSt.init, zero_def]
    | append_singleton xs x ih =>
      have hb := roll_window kind N 0 (xs ++ [x])
      have hp : rollRun kind N 0 (xs ++ [x]) = (rollRun kind N 0 xs).push kind x := by
        rw [rollRun, List.foldl_append]
        rfl
      refine ⟨?_, fun M hM => ?_⟩
      · have := rollExt_concat N id (fun _ => Iff.rfl) xs x
        rw [← this, ← hb, hp]
        show rollingSumStep _ _ x = _
        rw [ih.1]
        unfold rollingSumStep
        have e : windowPush (rollRun kind N 0 xs).b x = ((rollRun kind N 0 xs).push kind x).b := rfl
        rw [e]
        generalize ((rollRun kind N 0 xs).push kind x).b = b
        cases b.full
        · rfl
        · cases b.front <;> rfl
      · have := rollExt_concat N (mpow · M) (fun _ => fin_mpow_iff hM) xs x
        rw [← this, ← hb, hp]
        show rollingMomentStep M _ _ x = _
        rw [ih.2 M hM]
        unfold rollingMomentStep
        have e : windowPush (rollRun kind N 0 xs).b x = ((rollRun kind N 0 xs).push kind x).b := rfl
        rw [e]
        generalize ((rollRun kind N 0 xs).push kind x).b = b
        cases b.full
        · rfl
        · cases b.front <;> rfl
  refine ⟨fun h => ?_, fun ⟨x, hx, hf⟩ => ?_⟩
  · refine ⟨?_, fun M hM => ?_⟩
    · rw [key.1, rollExt, if_pos h, List.map_id]
    · rw [key.2 M hM, rollExt, if_pos h]
  · have hn : ¬ ∀ x ∈ xs.take (xs.length - N), IsFinite x := fun h => hf (h x hx)
    refine ⟨?_, fun M hM => ?_⟩
    · rw [key.1, rollExt, if_neg hn]
    · rw [key.2 M hM, rollExt, if_neg hn]

/-- **C76** The lazy rolling mean likewise: that of the window, or NaN for ever. -/
theorem C76_rolling_mean (kind : RollMeanKind) {N : ℕ} (hN : 0 < N) {xs : List (Ex K)} (hne : xs ≠ []) :
    ((∀ x ∈ xs.take (xs.length - N), IsFinite x) →
      (rollRun kind N 0 xs).mean .lazy = .val (extMean (Spec.lastN N xs))) ∧
    ((∃ x ∈ xs.take (xs.length - N), ¬ IsFinite x) → (rollRun kind N 0 xs).mean .lazy = .val nan) := by
  have hl : (Spec.lastN N xs).length ≠ 0 := by
    rw [lastN_length]
    have := List.length_pos_of_ne_nil hne
    omega
  have hc : rollingCount (rollRun kind N 0 xs).b = (Spec.lastN N xs).length := by
    rw [roll_window, rollingCount, Ring.full, lastN_length, lastN_length]
    split_ifs with h
    · simp at h
      omega
    · simp at h
      omega
  have h := C76_rolling kind N xs
  refine ⟨fun h1 => ?_, fun h2 => ?_⟩
  · show lazyRollingMeanResult _ _ = _
    rw [(h.1 h1).1, lazyRollingMeanResult, Res.val_bind, hc, fdiv_count hl, extMean_div _ (by simpa using hl)]
  · show lazyRollingMeanResult _ _ = _
    rw [(h.2 h2).1, lazyRollingMeanResult, Res.val_bind, hc, fdiv_count hl, nan_div]

end

section
variable {K : Type} [Field K] [LinearOrder K] [IsStrictOrderedRing K] {F : Fmt K}

/-- **C76** For every format: the immediate rolling mean skips NaN.  Pushing one changes nothing, although it takes a
place in the window and a sample leaves. -/
theorem C76_rolling_skip (kind : RollMeanKind) (N : ℕ) (x0 : Ext F) (xs : List (Ext F)) :
    (rollRun kind N x0 (xs ++ [nan])).imean = (rollRun kind N x0 xs).imean := by
  have hw : ∀ ys : List (Ext F), (rollRun kind N x0 ys).b = ⟨N + 1, Spec.lastN (N + 1) ys⟩ := by
    intro ys
    rw [← window_run]
    induction ys using List.reverseRecOn with
    | nil => rfl
    | append_singleton xs x ih =>
      rw [rollRun, List.foldl_append, List.foldl_append, ← ih]
      rfl
  have hb := hw (xs ++ [nan])
  have hp : rollRun kind N x0 (xs ++ [nan]) = (rollRun kind N x0 xs).push kind nan := by
    rw [rollRun, List.foldl_append]
    rfl
  rw [hp] at hb ⊢
  show immRollingMeanStep ((rollRun kind N x0 xs).push kind nan).b (rollRun kind N x0 xs).imean nan = _
  rw [hb, lastN_snoc_succ]
  cases h : Spec.lastN N xs ++ [nan] with
  | nil => simp at h
  | cons f t =>
    generalize (rollRun kind N x0 xs).imean = r
    cases r with
    | val m =>
      unfold immRollingMeanStep
      simp only [Res.val_bind, gt_iff_lt, Ring.front, not_lt_nan, not_nan_lt, if_false, Res.pure_eq, ite_self]
    | _ => rfl

/-- **C76 fails** for the immediate rolling mean: after a NaN has passed through the window it is a wrong finite number
for ever.  The window holds 3, 3; the mean says 2. -/
theorem C76_rolling_immediate_fails (k : ℕ) :
    (rollRun .immediate 2 (0 : Ex ℚ) ([fin 1, nan, fin 3, fin 3] ++ List.replicate k (fin 3))).imean = .val (fin 2) ∧
    windowResult (rollRun .immediate 2 (0 : Ex ℚ) ([fin 1, nan, fin 3, fin 3] ++ List.replicate k (fin 3))).b
      = [fin 3, fin 3] := by
  have key : ∀ k, (rollRun .immediate 2 (0 : Ex ℚ) ([fin 1, nan, fin 3, fin 3] ++ List.replicate (k + 1) (fin 3))).imean
        = .val (fin 2) ∧
      (rollRun .immediate 2 (0 : Ex ℚ) ([fin 1, nan, fin 3, fin 3] ++ List.replicate (k + 1) (fin 3))).b
        = ⟨3, [fin 3, fin 3, fin 3]⟩ := by
    intro k
    induction k with
    | zero => decide +kernel
    | succ k ih =>
      rw [List.replicate_succ', ← List.append_assoc, rollRun, List.foldl_append]
      rw [rollRun] at ih
      have h1 : (RollSt.push .immediate (List.foldl (RollSt.push .immediate) (RollSt.init 2 (0 : Ex ℚ))
          ([fin 1, nan, fin 3, fin 3] ++ List.replicate (k + 1) (fin 3))) (fin 3)).b = ⟨3, [fin 3, fin 3, fin 3]⟩ := by
        show windowPush _ _ = _
        rw [ih.2]
        rfl
      refine ⟨?_, h1⟩
      show immRollingMeanStep (RollSt.push .immediate _ (fin 3)).b _ (fin 3) = _
      rw [h1, ih.1]
      decide +kernel
  cases k with
  | zero => decide +kernel
  | succ k =>
    refine ⟨(key k).1, ?_⟩
    rw [(key k).2]
    rfl

/-- **C76 fails**: the order of the samples matters for the variance by recursion; an infinite sample of weight zero
makes a weighted sum NaN; of an infinite first sample the compensated sum is infinite, of the next ones NaN. -/
theorem C76_order_fails :
    varianceRun (lazyMean 0) (0 : Ex ℚ) [pinf, fin 1] = .val pinf ∧
    varianceRun (lazyMean 0) (0 : Ex ℚ) [fin 1, pinf] = .val nan ∧
    varianceRun (lazyMean 0) (0 : Ex ℚ) [nan] = .val 0 ∧
    weightedSumRun (0 : Ex ℚ) [(fin 1, fin 1), (pinf, fin 0)] = nan ∧
    (kahanRun id (0 : Ex ℚ) [fin 1, pinf]).sum = pinf ∧
    (kahanRun id (0 : Ex ℚ) [pinf, fin 1]).sum = nan ∧
    sumRun id (0 : Ex ℚ) [pinf, fin 1] = pinf := by
  decide +kernel

/-! ## Extremes -/

/-- `<` of the number type as the comparison of `min` and `max`. -/
def extLess (a b : Ext F) : Bool := lt a b

theorem extLess_trans {a b c : Ext F} (h1 : extLess a b = true) (h2 : extLess b c = true) : extLess a c = true := by
  cases a <;> cases b <;> cases c <;> simp_all [extLess, lt]
  exact h1.trans h2

/-- **C76** `min` never is NaN, no sample is smaller, and it is one of the samples as soon as one is finite or `-∞`.
If all are `+∞` or NaN it is the largest finite number, not a sample. -/
theorem C76_min (M : K) (xs : List (Ext F)) (hM : ∀ a, fin a ∈ xs → a ≤ M) :
    minRun extLess (fin M) xs ≠ nan ∧
    (∀ x ∈ xs, extLess x (minRun extLess (fin M) xs) = false) ∧
    ((∃ x ∈ xs, x ≠ pinf ∧ x ≠ nan) → minRun extLess (fin M) xs ∈ xs) ∧
    ((∀ x ∈ xs, x = pinf ∨ x = nan) → minRun extLess (fin M) xs = fin M ∧ minRun extLess (fin M) xs ∉ xs) := by
  have key : ∀ xs : List (Ext F), (minRun extLess (fin M) xs ≠ nan ∧ minRun extLess (fin M) xs ≠ pinf) ∧
      (∀ x ∈ xs, extLess x (minRun extLess (fin M) xs) = false) ∧
      (minRun extLess (fin M) xs ∈ xs ∨ minRun extLess (fin M) xs = fin M) := by
    intro xs
    induction xs using List.reverseRecOn with
    | nil => simp [minRun]
    | append_singleton xs x ih =>
      have e : minRun extLess (fin M) (xs ++ [x]) = minAssign extLess (minRun extLess (fin M) xs) x := by
        rw [minRun, List.foldl_append]
        rfl
      rw [e, minAssign]
      generalize minRun extLess (fin M) xs = r at ih
      obtain ⟨⟨h1, h1'⟩, h2, h3⟩ := ih
      split_ifs with h
      · refine ⟨⟨?_, ?_⟩, ?_, by simp⟩
        · rintro rfl
          cases r <;> simp [extLess, lt] at h
        · rintro rfl
          cases r <;> simp [extLess, lt] at h
        · intro y hy
          rcases List.mem_append.1 hy with hy | hy
          · by_contra hc
            rw [Bool.not_eq_false] at hc
            have := extLess_trans hc h
            rw [h2 y hy] at this
            simp at this
          · rw [List.mem_singleton.1 hy]
            cases x <;> simp [extLess, lt]
      · refine ⟨⟨h1, h1'⟩, ?_, ?_⟩
        · intro y hy
          rcases List.mem_append.1 hy with hy | hy
          · exact h2 y hy
          · rw [List.mem_singleton.1 hy]
            simpa using h
        · exact h3.imp (fun h => by simp [h]) id
  obtain ⟨⟨h1, h1'⟩, h2, h3⟩ := key xs
  refine ⟨h1, h2, ?_, ?_⟩
  · rintro ⟨x, hx, hp, hn⟩
    rcases h3 with h3 | h3
    · exact h3
    · have := h2 x hx
      rw [h3] at this ⊢
      cases x with
      | fin a =>
        have ha := hM a hx
        simp only [extLess, lt, decide_eq_false_iff_not, not_lt] at this
        rwa [le_antisymm this ha]
      | pinf => exact absurd rfl hp
      | ninf => simp [extLess, lt] at this
      | nan => exact absurd rfl hn
  · intro h
    have hnot : minRun extLess (fin M) xs ∉ xs := by
      intro hm
      rcases h _ hm with h | h
      · exact h1' h
      · exact h1 h
    exact ⟨h3.resolve_left hnot, hnot⟩

/-- **C76** `max` never is NaN, no sample is larger, and it is one of the samples as soon as one is finite or `+∞`.
If all are `-∞` or NaN it is the lowest finite number, not a sample. -/
theorem C76_max (M : K) (xs : List (Ext F)) (hM : ∀ a, fin a ∈ xs → -M ≤ a) :
    maxRun extLess (fin (-M)) xs ≠ nan ∧
    (∀ x ∈ xs, extLess (maxRun extLess (fin (-M)) xs) x = false) ∧
    ((∃ x ∈ xs, x ≠ ninf ∧ x ≠ nan) → maxRun extLess (fin (-M)) xs ∈ xs) ∧
    ((∀ x ∈ xs, x = ninf ∨ x = nan) → maxRun extLess (fin (-M)) xs = fin (-M) ∧ maxRun extLess (fin (-M)) xs ∉ xs) := by
  have key : ∀ xs : List (Ext F), (maxRun extLess (fin (-M)) xs ≠ nan ∧ maxRun extLess (fin (-M)) xs ≠ ninf) ∧
      (∀ x ∈ xs, extLess (maxRun extLess (fin (-M)) xs) x = false) ∧
      (maxRun extLess (fin (-M)) xs ∈ xs ∨ maxRun extLess (fin (-M)) xs = fin (-M)) := by
    intro xs
    induction xs using List.reverseRecOn with
    | nil => simp [maxRun]
    | append_singleton xs x ih =>
      have e : maxRun extLess (fin (-M)) (xs ++ [x]) = maxAssign extLess (maxRun extLess (fin (-M)) xs) x := by
        rw [maxRun, List.foldl_append]
        rfl
      rw [e, maxAssign]
      generalize maxRun extLess (fin (-M)) xs = r at ih
      obtain ⟨⟨h1, h1'⟩, h2, h3⟩ := ih
      split_ifs with h
      · refine ⟨⟨?_, ?_⟩, ?_, by simp⟩
        · rintro rfl
          cases r <;> simp [extLess, lt] at h
        · rintro rfl
          cases r <;> simp [extLess, lt] at h
        · intro y hy
          rcases List.mem_append.1 hy with hy | hy
          · by_contra hc
            rw [Bool.not_eq_false] at hc
            have := extLess_trans h hc
            rw [h2 y hy] at this
            simp at this
          · rw [List.mem_singleton.1 hy]
            cases x <;> simp [extLess, lt]
      · refine ⟨⟨h1, h1'⟩, ?_, ?_⟩
        · intro y hy
          rcases List.mem_append.1 hy with hy | hy
          · exact h2 y hy
          · rw [List.mem_singleton.1 hy]
            simpa using h
        · exact h3.imp (fun h => by simp [h]) id
  obtain ⟨⟨h1, h1'⟩, h2, h3⟩ := key xs
  refine ⟨h1, h2, ?_, ?_⟩
  · rintro ⟨x, hx, hp, hn⟩
    rcases h3 with h3 | h3
    · exact h3
    · have := h2 x hx
      rw [h3] at this ⊢
      cases x with
      | fin a =>
        have ha := hM a hx
        simp only [extLess, lt, decide_eq_false_iff_not, not_lt] at this
        rwa [le_antisymm ha this]
      | ninf => exact absurd rfl hp
      | pinf => simp [extLess, lt] at this
      | nan => exact absurd rfl hn
  · intro h
    have hnot : maxRun extLess (fin (-M)) xs ∉ xs := by
      intro hm
      rcases h _ hm with h | h
      · exact h1' h
      · exact h1 h
    exact ⟨h3.resolve_left hnot, hnot⟩

/-! ## Overflow -/

theorem of_upTo {M : K} (h0 : 0 ≤ M) (h1 : 1 ≤ M) {x : K} (h : x ≤ M) (h' : -M ≤ x) :
    of (Fmt.upTo M h0 h1) x = fin x := by
  have e1 : ¬ M < x := not_lt.2 h
  have e2 : ¬ M < -x := by linarith
  simp [of, Fmt.upTo, Fmt.exact, e1, e2]

theorem of_over {M : K} (h0 : 0 ≤ M) (h1 : 1 ≤ M) {x : K} (h : M < x) : of (Fmt.upTo M h0 h1) x = pinf := by
  simp [of, Fmt.upTo, Fmt.exact, h]

/-- **C76 fails**: both means of `M, M` are infinite in a format whose largest number is `M`. -/
theorem C76_overflow_mean_fails {M : K} (h2 : 2 ≤ M) :
    let F := Fmt.upTo M (by linarith) (by linarith)
    (lazyMean (0 : Ext F)).read ((lazyMean 0).run [fin M, fin M]) = .val pinf ∧
    (immMean (0 : Ext F)).read ((immMean 0).run [fin M, fin M]) = .val pinf := by
  intro F
  have h0 : (0 : K) ≤ M := by linarith
  have h1 : (1 : K) ≤ M := by linarith
  have ofle : ∀ {x : K}, x ≤ M → -M ≤ x → of F x = fin x := fun a b => of_upTo h0 h1 a b
  have e2 : (fin M + fin M : Ext F) = pinf := of_over h0 h1 (by linarith)
  have c1 : ((1 : ℕ) : Ext F) = fin 1 := by
    rw [natCast_def, Nat.cast_one, ofle h1 (by linarith)]
  have c2 : ((2 : ℕ) : Ext F) = fin 2 := by
    rw [natCast_def, Nat.cast_ofNat, ofle h2 (by linarith)]
  have hp : (pinf / fin 2 : Ext F) = pinf := if_neg (by norm_num)
  have hz : (fin 0 + fin M : Ext F) = fin M := by
    rw [add_def, add, zero_add, ofle le_rfl (by linarith)]
  refine ⟨?_, ?_⟩
  · show fdiv (0 + fin M + fin M) ((2 : ℕ) : Ext F) = _
    rw [fdiv_count (by norm_num), zero_def, hz, e2, c2, hp]
  · have hi : fdiv (0 : Ext F) 1 = .val (fin 0) := by
      rw [fdiv, if_neg (by rw [one_def, zero_def]; simp), zero_def, one_def, div_def, div, if_neg one_ne_zero, zero_div,
        ofle h0 (by linarith)]
    have hs : (fin 1 - fin 1 : Ext F) = fin 0 := by rw [sub_def, sub, sub_self, ofle h0 (by linarith)]
    have hs2 : (fin 2 - fin 1 : Ext F) = fin 1 := by
      rw [sub_def, sub, show (2 : K) - 1 = 1 by norm_num, ofle h1 (by linarith)]
    have hm : (fin 0 * fin 0 : Ext F) = fin 0 := by rw [mul_def, mul, zero_mul, ofle h0 (by linarith)]
    have hm1 : (fin M * fin 1 : Ext F) = fin M := by rw [mul_def, mul, mul_one, ofle le_rfl (by linarith)]
    have hd : (fin M / fin 1 : Ext F) = fin M := by
      rw [div_def, div, if_neg one_ne_zero, div_one, ofle le_rfl (by linarith)]
    show immMeanStep 2 (immMeanStep 1 (fdiv 0 1) (fin M)) (fin M) = _
    have s1 : immMeanStep 1 (fdiv 0 1) (fin M) = .val (fin M : Ext F) := by
      rw [hi, immMeanStep, Res.val_bind, fdiv_count one_ne_zero, c1, one_def, hs, hm, hz, hd]
    rw [s1, immMeanStep, Res.val_bind, fdiv_count two_ne_zero, c2, one_def, hs2, hm1, e2, hp]

/-- **C76** For every format: the immediate rolling mean of a constant stream is that number exactly, after any number
of samples. -/
theorem C76_rolling_constant (kind : RollMeanKind) (N : ℕ) (hN : 0 < N) {x : K} (hx : F.rd x = x)
    (ho : F.huge x = false) (ho' : F.huge (-x) = false) (n : ℕ) :
    (rollRun kind N (0 : Ext F) (List.replicate (n + 1) (fin x))).imean = .val (fin x) := by
  have hw : ∀ ys : List (Ext F), (rollRun kind N 0 ys).b = ⟨N + 1, Spec.lastN (N + 1) ys⟩ := by
    intro ys
    rw [← window_run]
    induction ys using List.reverseRecOn with
    | nil => rfl
    | append_singleton xs x ih =>
      rw [rollRun, List.foldl_append, List.foldl_append, ← ih]
      rfl
  have hof : of F x = fin x := by simp [of, hx, ho, ho']
  have hof' : of F (-x) = fin (-x) := by simp [of, F.neg x hx, ho, ho']
  have ho1 : F.huge (-1) = false := by
    by_contra h
    rw [Bool.not_eq_false] at h
    have := F.huge_mono _ _ (by norm_num : (-1 : K) ≤ 0) h
    rw [F.huge_zero] at this
    simp at this
  have c1 : ((1 : ℕ) : Ext F) = fin 1 := by
    rw [natCast_def, Nat.cast_one]
    simp [of, F.one, F.huge_one, ho1]
  have hi : fdiv (0 : Ext F) 1 = .val (fin 0) := by
    rw [fdiv, if_neg (by rw [one_def, zero_def]; simp), zero_def, one_def, div_def, div, if_neg one_ne_zero, zero_div]
    simp [of, F.zero, F.huge_zero]
  induction n with
  | zero =>
    have hb : windowPush (windowInit N) (fin x : Ext F) = ⟨N + 1, [fin x]⟩ := by
      simp [windowPush, windowInit, Ring.pushBack]
    show immRollingMeanStep (windowPush (windowInit N) (fin x)) (fdiv 0 1) (fin x) = _
    have hfull : (⟨N + 1, [fin x]⟩ : Ring (Ext F)).full = false := by
      simp [Ring.full]
      omega
    have hcnt : rollingCount (⟨N + 1, [fin x]⟩ : Ring (Ext F)) = 1 := by
      rw [rollingCount, hfull]
      rfl
    rw [hb, hi, immRollingMeanStep, Res.val_bind, hfull, hcnt]
    simp only [Bool.false_eq_true, if_false]
    by_cases hg : 0 < x
    · rw [if_neg (by rw [gt_iff_lt, lt_def]; simp [lt, hg.le]), if_pos (by rw [lt_def]; simp [lt, hg]),
        fdiv_count one_ne_zero, c1]
      have e1 : (fin x - fin 0 : Ext F) = fin x := by rw [sub_def, sub, sub_zero, hof]
      have e2 : (fin x / fin 1 : Ext F) = fin x := by rw [div_def, div, if_neg one_ne_zero, div_one, hof]
      have e3 : (fin 0 + fin x : Ext F) = fin x := by rw [add_def, add, zero_add, hof]
      rw [e1, e2]
      simp only [Res.val_bind, Res.pure_eq, e3]
    · by_cases hl : x < 0
      · rw [if_pos (by rw [gt_iff_lt, lt_def]; simp [lt, hl]), fdiv_count one_ne_zero, c1]
        have e1 : (fin 0 - fin x : Ext F) = fin (-x) := by rw [sub_def, sub, zero_sub, hof']
        have e2 : (fin (-x) / fin 1 : Ext F) = fin (-x) := by rw [div_def, div, if_neg one_ne_zero, div_one, hof']
        have e3 : (fin 0 - fin (-x) : Ext F) = fin x := by rw [sub_def, sub, zero_sub, neg_neg, hof]
        rw [e1, e2]
        simp only [Res.val_bind, Res.pure_eq, e3]
      · have : x = 0 := le_antisymm (not_lt.1 hg) (not_lt.1 hl)
        subst this
        have : ¬ (fin 0 : Ext F) < fin 0 := by rw [lt_def]; simp [lt]
        simp only [gt_iff_lt, this, if_false, Res.pure_eq]
  | succ n ih =>
    rw [List.replicate_succ']
    have hp : rollRun kind N (0 : Ext F) (List.replicate (n + 1) (fin x) ++ [fin x])
        = (rollRun kind N 0 (List.replicate (n + 1) (fin x))).push kind (fin x) := by
      rw [rollRun, List.foldl_append]
      rfl
    have hb := hw (List.replicate (n + 1) (fin x) ++ [fin x])
    rw [hp] at hb ⊢
    show immRollingMeanStep ((rollRun kind N 0 (List.replicate (n + 1) (fin x))).push kind (fin x)).b
      (rollRun kind N 0 (List.replicate (n + 1) (fin x))).imean (fin x) = _
    rw [hb, ih, lastN_snoc_succ, immRollingMeanStep, Res.val_bind]
    have hirr : ¬ (fin x : Ext F) < fin x := by rw [lt_def]; simp [lt]
    have hmem : ∀ e ∈ Spec.lastN N (List.replicate (n + 1) (fin x : Ext F)) ++ [fin x], e = fin x := by
      intro e he
      rcases List.mem_append.1 he with he | he
      · exact List.eq_of_mem_replicate (List.mem_of_mem_drop he)
      · exact List.mem_singleton.1 he
    cases h : Spec.lastN N (List.replicate (n + 1) (fin x : Ext F)) ++ [fin x] with
    | nil => simp at h
    | cons f t =>
      have : f = fin x := hmem f (by rw [h]; simp)
      subst this
      simp only [Ring.front, Res.val_bind, gt_iff_lt, hirr, if_false, Res.pure_eq, ite_self]

/-- **C76 fails** for the lazy variance by overflow: the squares overflow although the variance, 0, is representable. -/
theorem C76_overflow_variance_fails :
    let F := Fmt.upTo (100 : ℚ) (by norm_num) (by norm_num)
    lazyVarianceRun (lazyMean 0) (0 : Ext F) [fin 20, fin 20] = .val nan ∧
    varianceRun (lazyMean 0) (0 : Ext F) [fin 20, fin 20] = .val (fin 0) := by
  decide +kernel

/-! ## The hypotheses can be met -/

example : (kahanRun id (0 : Ex ℚ) ([fin 2, ninf] ++ fin 3 :: [fin 4])).sum = nan :=
  C76_kahan 0 [fin 2, ninf] (fin 3) [fin 4] (by decide +kernel) (by simp)

example : (lazyMean (0 : Ex ℚ)).read ((lazyMean 0).run [fin 1, ninf, fin 3]) = .val ninf := by
  rw [(C76_mean (by simp)).2.1]
  decide +kernel

example : varianceRun (immMean 0) (0 : Ex ℚ) [ninf, fin 1, fin 5] = .val pinf := by
  rw [C76_variance _ (.inr rfl) (by simp)]
  decide +kernel

example : varianceRun (immMean 0) (0 : Ex ℚ) [fin 1, fin 5] = .val (fin 4) :=
  ((C76_conservative (xs := [1, 5]) (by simp) 1 _ (.inr rfl)).2.2.2.2).trans (by decide +kernel)

example : (rollRun .lazy 2 (0 : Ex ℚ) [fin 1, pinf, fin 2]).sum = .val pinf :=
  ((C76_rolling .lazy 2 [fin 1, pinf, fin 2]).1 (by decide +kernel)).1.trans (by decide +kernel)

example : (rollRun .lazy 2 (0 : Ex ℚ) [fin 1, pinf, fin 2, fin 3, fin 4]).sum = .val nan :=
  ((C76_rolling .lazy 2 [fin 1, pinf, fin 2, fin 3, fin 4]).2 ⟨pinf, by decide +kernel⟩).1

example : minRun extLess (fin 1000) [nan, (fin 3 : Ex ℚ), pinf] = fin 3 ∧
    minRun extLess (fin 1000) [nan, (pinf : Ex ℚ)] = fin 1000 := by decide +kernel

example := (C76_min (F := Fmt.exact ℚ) 1000 [nan, fin 3, pinf] (by simp; norm_num)).2.2.1
  ⟨fin 3, by simp, nofun, nofun⟩

/-- IEEE 754 double precision with overflow (without the lower limit of the exponents). -/
def ieeeDouble : Fmt ℚ where
  toRounding := double
  two := (by decide +kernel)
  huge x := decide ((2 ^ 53 - 1) * 2 ^ 971 < x)
  huge_mono x y h := by simpa using fun h' => lt_of_lt_of_le h' h
  huge_zero := by decide +kernel
  huge_one := by decide +kernel

example : sumRun id (0 : Ext ieeeDouble) [fin (2 ^ 1023), fin (2 ^ 1022), fin (2 ^ 1022)] = pinf := by decide +kernel

example := C76_rolling_constant (F := ieeeDouble) .immediate 3 (by norm_num) (x := 2 ^ 1023) (by decide +kernel)
  (by decide +kernel) (by decide +kernel) 100

/-- Numbers up to 10; the sum of the samples is far beyond. -/
example := C76_rolling_constant (F := Fmt.upTo (10 : ℚ) (by norm_num) (by norm_num)) .immediate 3 (by norm_num) (x := 9)
  rfl (by decide +kernel) (by decide +kernel) 100

end

end Acc
