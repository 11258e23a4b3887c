import Verif.Proofs.QuerySet

/-!
# A result is the same with and without earlier extractions
-/

set_option linter.unusedSectionVars false

namespace Acc

open StdF

namespace Cell

section
variable {K : Type} [Field K] [LinearOrder K] [IsStrictOrderedRing K] [FloorRing K]

/-- The accumulators that keep a result. -/
def keeps : StdF → Bool
  | density | weightedDensity | pSquareCumul | weightedPSquareCumul | withCumulMedian | withCumulWeightedMedian => true
  | _ => false

/-- The accumulators of the tail. -/
def ofTail : StdF → Bool
  | .tail _ | .tailVariate _ _ | .tailWeights _ => true
  | _ => false

theorem core_cases {c c' : Cell K} (h : core c = core c') : c = c' ∨
    (∃ s s', c = .dens s ∧ c' = .dens s') ∨ (∃ s s', c = .wdens s ∧ c' = .wdens s') ∨
    (∃ s s', c = .cumul s ∧ c' = .cumul s') ∨ (∃ s s', c = .wcumul s ∧ c' = .wcumul s') ∨
    (∃ s d m s' d' m', c = .densMedian s d m ∧ c' = .densMedian s' d' m') ∨
    (∃ d m d' m', c = .cumulMedian d m ∧ c' = .cumulMedian d' m') ∨
    (∃ s s', c = .tail s ∧ c' = .tail s') ∨ (∃ s s', c = .variates s ∧ c' = .variates s') ∨
    (∃ s s', c = .weights s ∧ c' = .weights s') ∨ (∃ s s', c = .pot s ∧ c' = .pot s') ∨
    (∃ s s', c = .wpot s ∧ c' = .wpot s') ∨
    (∃ a b t f d a' b' t' f' d', c = .potProb a b t f d ∧ c' = .potProb a' b' t' f' d') := by
  cases c <;> cases c' <;> first
    | (simp only [core] at h; cases h; done)
    | exact Or.inl h
    | simp

/-- What the other accumulators return does not depend on what extraction changes. -/
theorem result_other (cfg : Cfg K) (env : Env StdF (Cell K)) (p : K) (rd : StdF → Out K) {f : StdF} {c c' : Cell K}
    (h : core c = core c') (h1 : Spec.sticky f = false) (h2 : ofTail f = false) (h3 : keeps f = false) :
    result cfg env p rd f c = result cfg env p rd f c' := by
  rcases core_cases h with rfl | ⟨_, _, rfl, rfl⟩ | ⟨_, _, rfl, rfl⟩ | ⟨_, _, rfl, rfl⟩ | ⟨_, _, rfl, rfl⟩ |
    ⟨_, _, _, _, _, _, rfl, rfl⟩ | ⟨_, _, _, _, rfl, rfl⟩ | ⟨_, _, rfl, rfl⟩ | ⟨_, _, rfl, rfl⟩ | ⟨_, _, rfl, rfl⟩ |
    ⟨_, _, rfl, rfl⟩ | ⟨_, _, rfl, rfl⟩ | ⟨_, _, _, _, _, _, _, _, _, _, rfl, rfl⟩
  · rfl
  all_goals
    cases f <;> first
      | (cases h1; done)
      | (cases h2; done)
      | (cases h3; done)
      | rfl

/-- A result is computed from the elementary statistics, the window, and the results of others. -/
theorem result_env (cfg : Cfg K) {env env' : Env StdF (Cell K)} (he : coreEnv env = coreEnv env') (p : K)
    {rd rd' : StdF → Out K} {f : StdF} (c : Cell K) (hrd : ∀ k ∈ reads f c, rd k = rd' k)
    (h1 : Spec.sticky f = false) (h2 : ofTail f = false) (h3 : keeps f = false) :
    result cfg env p rd f c = result cfg env' p rd' f c := by
  have e1 := count_eq he
  have e2 := stat_eq cfg he
  have e3 := window_eq he
  have e4 : ∀ g, withWindow env g = withWindow env' g := fun g => by unfold withWindow; rw [e3]
  cases c with
  | stat s =>
    show Out.num _ = Out.num _
    rw [e2]
  | _ =>
    cases f <;> first
      | (cases h1; done)
      | (cases h2; done)
      | (cases h3; done)
      | rfl
      | (simp only [reads, List.mem_cons, List.not_mem_nil, or_false, forall_eq_or_imp, forall_eq] at hrd
         simp only [result, e1, e2, e3, e4, hrd])

theorem densityQuery_out {s s' : DensitySt K} (n : ℕ) (h : s.core = s'.core) (hd : s.dirty = true)
    (hd' : s'.dirty = true) : ((densityQuery { s with cnt := n }).bind fun r => Res.val r.2) =
      (densityQuery { s' with cnt := n }).bind fun r => Res.val r.2 := by
  obtain ⟨cnt, mn, mx, cs, ca, nb, bi, po, hi, di⟩ := s
  obtain ⟨cnt', mn', mx', cs', ca', nb', bi', po', hi', di'⟩ := s'
  simp only [DensitySt.core, DensitySt.mk.injEq] at h
  obtain ⟨-, rfl, rfl, rfl, rfl, rfl, rfl, rfl, -, -⟩ := h
  subst hd
  subst hd'
  unfold densityQuery
  dsimp only
  rw [if_pos rfl]
  generalize mapRes _ _ = r
  cases r <;> rfl

theorem wdensityQuery_out {s s' : WDensitySt K} (w : K) (h : s.core = s'.core) (hd : s.dirty = true)
    (hd' : s'.dirty = true) : ((wdensityQuery { s with wsum := w }).bind fun r => Res.val r.2) =
      (wdensityQuery { s' with wsum := w }).bind fun r => Res.val r.2 := by
  cases s
  cases s'
  simp only [WDensitySt.core, WDensitySt.mk.injEq] at h
  simp only at hd hd'
  subst hd
  subst hd'
  unfold wdensityQuery
  dsimp only
  rw [if_pos rfl]
  simp only [h]
  generalize mapRes _ _ = r
  cases r <;> rfl

theorem over_core {α : Type} {g : α → α} {r r' : Res α} (h : r.over g = r'.over g) :
    (∃ a a', r = .val a ∧ r' = .val a' ∧ g a = g a') ∨ (r = r' ∧ ∀ a, r ≠ .val a) := by
  cases r <;> cases r' <;> simp_all [Res.over, Res.bind]

/-- A result that has to be computed. -/
theorem result_fresh (cfg : Cfg K) {env env' : Env StdF (Cell K)} (he : coreEnv env = coreEnv env') (p p' : K)
    {rd rd' : StdF → Out K} {f : StdF} {c c' : Cell K} (h : core c = core c') (hk : keeps f = true)
    (hm : memo f c = Option.none) (hm' : memo f c' = Option.none)
    (hrd : ∀ k ∈ reads f c, (rd k).asHist = (rd' k).asHist) :
    result cfg env p rd f c = result cfg env' p' rd' f c' := by
  have e1 := count_eq he
  have e2 := stat_eq cfg he
  cases f with
  | density =>
    rcases core_cases h with rfl | ⟨s, s', rfl, rfl⟩ | ⟨_, _, rfl, rfl⟩ | ⟨_, _, rfl, rfl⟩ | ⟨_, _, rfl, rfl⟩ |
      ⟨_, _, _, _, _, _, rfl, rfl⟩ | ⟨_, _, _, _, rfl, rfl⟩ | ⟨_, _, rfl, rfl⟩ | ⟨_, _, rfl, rfl⟩ | ⟨_, _, rfl, rfl⟩ |
      ⟨_, _, rfl, rfl⟩ | ⟨_, _, rfl, rfl⟩ | ⟨_, _, _, _, _, _, _, _, _, _, rfl, rfl⟩
    · cases c with
      | stat s => exact congrArg Out.num (e2 _)
      | dens s => simp only [result, e1]
      | _ => rfl
    · simp only [core, Cell.dens.injEq] at h
      rcases over_core h with ⟨s, s', rfl, rfl, hc⟩ | ⟨rfl, -⟩
      · have hd : s.dirty = true := by
          cases hs : s.dirty with
          | true => rfl
          | false => simp [memo, kept, cached, hs] at hm
        have hd' : s'.dirty = true := by
          cases hs : s'.dirty with
          | true => rfl
          | false => simp [memo, kept, cached, hs] at hm'
        simp only [result, e1]
        exact congrArg Out.hist (densityQuery_out _ hc hd hd')
      · simp only [result, e1]
    all_goals rfl
  | weightedDensity =>
    rcases core_cases h with rfl | ⟨_, _, rfl, rfl⟩ | ⟨s, s', rfl, rfl⟩ | ⟨_, _, rfl, rfl⟩ | ⟨_, _, rfl, rfl⟩ |
      ⟨_, _, _, _, _, _, rfl, rfl⟩ | ⟨_, _, _, _, rfl, rfl⟩ | ⟨_, _, rfl, rfl⟩ | ⟨_, _, rfl, rfl⟩ | ⟨_, _, rfl, rfl⟩ |
      ⟨_, _, rfl, rfl⟩ | ⟨_, _, rfl, rfl⟩ | ⟨_, _, _, _, _, _, _, _, _, _, rfl, rfl⟩
    · cases c with
      | stat s => exact congrArg Out.num (e2 _)
      | wdens s => simp only [result, e2]
      | _ => rfl
    · rfl
    · simp only [core, Cell.wdens.injEq] at h
      rcases over_core h with ⟨s, s', rfl, rfl, hc⟩ | ⟨rfl, -⟩
      · have hd : s.dirty = true := by
          cases hs : s.dirty with
          | true => rfl
          | false => simp [memo, kept, cached, hs] at hm
        have hd' : s'.dirty = true := by
          cases hs : s'.dirty with
          | true => rfl
          | false => simp [memo, kept, cached, hs] at hm'
        simp only [result, e2]
        refine congrArg Out.hist ?_
        cases statOf cfg env' sumOfWeights with
        | val w => exact wdensityQuery_out _ hc hd hd'
        | _ => rfl
      · simp only [result, e2]
    all_goals rfl
  | pSquareCumul =>
    rcases core_cases h with rfl | ⟨_, _, rfl, rfl⟩ | ⟨_, _, rfl, rfl⟩ | ⟨s, s', rfl, rfl⟩ | ⟨_, _, rfl, rfl⟩ |
      ⟨_, _, _, _, _, _, rfl, rfl⟩ | ⟨_, _, _, _, rfl, rfl⟩ | ⟨_, _, rfl, rfl⟩ | ⟨_, _, rfl, rfl⟩ | ⟨_, _, rfl, rfl⟩ |
      ⟨_, _, rfl, rfl⟩ | ⟨_, _, rfl, rfl⟩ | ⟨_, _, _, _, _, _, _, _, _, _, rfl, rfl⟩
    · cases c with
      | stat s => exact congrArg Out.num (e2 _)
      | cumul s => simp only [result, e1]
      | _ => rfl
    · rfl
    · rfl
    · simp only [core, Cell.cumul.injEq] at h
      rcases over_core h with ⟨s, s', rfl, rfl, hc⟩ | ⟨rfl, -⟩
      · have hd : s.dirty = true := by
          cases hs : s.dirty with
          | true => rfl
          | false => simp [memo, kept, cached, hs] at hm
        have hd' : s'.dirty = true := by
          cases hs : s'.dirty with
          | true => rfl
          | false => simp [memo, kept, cached, hs] at hm'
        have e : s.core.m = s'.core.m := congrArg PsqCumulSt.m hc
        simp only [PsqCumulSt.core] at e
        simp only [result, e1, Res.bind, hd, hd', e, if_true]
      · simp only [result, e1]
    all_goals rfl
  | weightedPSquareCumul =>
    rcases core_cases h with rfl | ⟨_, _, rfl, rfl⟩ | ⟨_, _, rfl, rfl⟩ | ⟨_, _, rfl, rfl⟩ | ⟨s, s', rfl, rfl⟩ |
      ⟨_, _, _, _, _, _, rfl, rfl⟩ | ⟨_, _, _, _, rfl, rfl⟩ | ⟨_, _, rfl, rfl⟩ | ⟨_, _, rfl, rfl⟩ | ⟨_, _, rfl, rfl⟩ |
      ⟨_, _, rfl, rfl⟩ | ⟨_, _, rfl, rfl⟩ | ⟨_, _, _, _, _, _, _, _, _, _, rfl, rfl⟩
    · cases c with
      | stat s => exact congrArg Out.num (e2 _)
      | wcumul s => simp only [result, e2]
      | _ => rfl
    · rfl
    · rfl
    · rfl
    · simp only [core, Cell.wcumul.injEq] at h
      rcases over_core h with ⟨s, s', rfl, rfl, hc⟩ | ⟨rfl, -⟩
      · have hd : s.dirty = true := by
          cases hs : s.dirty with
          | true => rfl
          | false => simp [memo, kept, cached, hs] at hm
        have hd' : s'.dirty = true := by
          cases hs : s'.dirty with
          | true => rfl
          | false => simp [memo, kept, cached, hs] at hm'
        have e : s.core.m = s'.core.m := congrArg WPsqCumulSt.m hc
        simp only [WPsqCumulSt.core] at e
        simp only [result, e2, Res.bind, hd, hd', e, if_true]
      · simp only [result, e2]
    all_goals rfl
  | withCumulMedian | withCumulWeightedMedian =>
    rcases core_cases h with rfl | ⟨_, _, rfl, rfl⟩ | ⟨_, _, rfl, rfl⟩ | ⟨_, _, rfl, rfl⟩ | ⟨_, _, rfl, rfl⟩ |
      ⟨_, _, _, _, _, _, rfl, rfl⟩ | ⟨d, m, d', m', rfl, rfl⟩ | ⟨_, _, rfl, rfl⟩ | ⟨_, _, rfl, rfl⟩ | ⟨_, _, rfl, rfl⟩ |
      ⟨_, _, rfl, rfl⟩ | ⟨_, _, rfl, rfl⟩ | ⟨_, _, _, _, _, _, _, _, _, _, rfl, rfl⟩
    · cases c with
      | stat s => exact congrArg Out.num (e2 _)
      | cumulMedian d m =>
        cases d with
        | false => rfl
        | true =>
          have e := hrd pSquareCumul (by simp [reads])
          simp only [result, e]
      | _ => rfl
    all_goals first
      | rfl
      | (cases d with
        | false => simp [memo, kept, cached] at hm
        | true =>
          cases d' with
          | false => simp [memo, kept, cached] at hm'
          | true =>
            have e := hrd pSquareCumul (by simp [reads])
            simp only [result, e, if_true])
  | _ => cases hk

/-- A result that was kept. -/
theorem result_kept (cfg : Cfg K) {env env' : Env StdF (Cell K)} (he : coreEnv env = coreEnv env') (p p' : K)
    {rd rd' : StdF → Out K} {f : StdF} {c c' : Cell K} {o : Out K} (h : core c = core c') (hk : keeps f = true)
    (hm : memo f c = some o) (ho : result cfg env' p' rd' f c' = o) :
    result cfg env p rd f c = result cfg env' p' rd' f c' := by
  have e2 := stat_eq cfg he
  cases f with
  | density =>
    rcases core_cases h with rfl | ⟨s, s', rfl, rfl⟩ | ⟨_, _, rfl, rfl⟩ | ⟨_, _, rfl, rfl⟩ | ⟨_, _, rfl, rfl⟩ |
      ⟨_, _, _, _, _, _, rfl, rfl⟩ | ⟨_, _, _, _, rfl, rfl⟩ | ⟨_, _, rfl, rfl⟩ | ⟨_, _, rfl, rfl⟩ | ⟨_, _, rfl, rfl⟩ |
      ⟨_, _, rfl, rfl⟩ | ⟨_, _, rfl, rfl⟩ | ⟨_, _, _, _, _, _, _, _, _, _, rfl, rfl⟩
    · cases c with
      | stat s => exact congrArg Out.num (e2 _)
      | dens s => simp only [result, count_eq he]
      | _ => rfl
    · rw [ho]
      cases s with
      | val s =>
        cases hs : s.dirty with
        | true => simp [memo, kept, cached, hs] at hm
        | false =>
          simp [memo, kept, cached, hs] at hm
          subst hm
          simp [result, Res.bind, densityQuery, hs, Res.pure_eq]
      | _ => simp [memo, kept, cached] at hm
    all_goals rfl
  | weightedDensity =>
    rcases core_cases h with rfl | ⟨_, _, rfl, rfl⟩ | ⟨s, s', rfl, rfl⟩ | ⟨_, _, rfl, rfl⟩ | ⟨_, _, rfl, rfl⟩ |
      ⟨_, _, _, _, _, _, rfl, rfl⟩ | ⟨_, _, _, _, rfl, rfl⟩ | ⟨_, _, rfl, rfl⟩ | ⟨_, _, rfl, rfl⟩ | ⟨_, _, rfl, rfl⟩ |
      ⟨_, _, rfl, rfl⟩ | ⟨_, _, rfl, rfl⟩ | ⟨_, _, _, _, _, _, _, _, _, _, rfl, rfl⟩
    · cases c with
      | stat s => exact congrArg Out.num (e2 _)
      | wdens s => simp only [result, e2]
      | _ => rfl
    · rfl
    · cases s with
      | val s =>
        cases hs : s.dirty with
        | true => simp [memo, kept, cached, hs] at hm
        | false =>
          simp [memo, kept, cached, hs] at hm
          subst hm
          have hw : ∃ w, statOf cfg env' sumOfWeights = .val w := by
            simp only [result, Out.hist.injEq] at ho
            obtain ⟨w, hw, -⟩ := bind_val_of ho
            exact ⟨w, hw⟩
          obtain ⟨w, hw⟩ := hw
          rw [ho]
          simp [result, e2, hw, Res.bind, wdensityQuery, hs, Res.pure_eq]
      | _ => simp [memo, kept, cached] at hm
    all_goals rfl
  | pSquareCumul =>
    rcases core_cases h with rfl | ⟨_, _, rfl, rfl⟩ | ⟨_, _, rfl, rfl⟩ | ⟨s, s', rfl, rfl⟩ | ⟨_, _, rfl, rfl⟩ |
      ⟨_, _, _, _, _, _, rfl, rfl⟩ | ⟨_, _, _, _, rfl, rfl⟩ | ⟨_, _, rfl, rfl⟩ | ⟨_, _, rfl, rfl⟩ | ⟨_, _, rfl, rfl⟩ |
      ⟨_, _, rfl, rfl⟩ | ⟨_, _, rfl, rfl⟩ | ⟨_, _, _, _, _, _, _, _, _, _, rfl, rfl⟩
    · cases c with
      | stat s => exact congrArg Out.num (e2 _)
      | cumul s => simp only [result, count_eq he]
      | _ => rfl
    · rfl
    · rfl
    · rw [ho]
      cases s with
      | val s =>
        cases hs : s.dirty with
        | true => simp [memo, kept, cached, hs] at hm
        | false =>
          simp [memo, kept, cached, hs] at hm
          subst hm
          simp [result, Res.bind, hs]
      | _ => simp [memo, kept, cached] at hm
    all_goals rfl
  | weightedPSquareCumul =>
    rcases core_cases h with rfl | ⟨_, _, rfl, rfl⟩ | ⟨_, _, rfl, rfl⟩ | ⟨_, _, rfl, rfl⟩ | ⟨s, s', rfl, rfl⟩ |
      ⟨_, _, _, _, _, _, rfl, rfl⟩ | ⟨_, _, _, _, rfl, rfl⟩ | ⟨_, _, rfl, rfl⟩ | ⟨_, _, rfl, rfl⟩ | ⟨_, _, rfl, rfl⟩ |
      ⟨_, _, rfl, rfl⟩ | ⟨_, _, rfl, rfl⟩ | ⟨_, _, _, _, _, _, _, _, _, _, rfl, rfl⟩
    · cases c with
      | stat s => exact congrArg Out.num (e2 _)
      | wcumul s => simp only [result, e2]
      | _ => rfl
    · rfl
    · rfl
    · rfl
    · cases s with
      | val s =>
        cases hs : s.dirty with
        | true => simp [memo, kept, cached, hs] at hm
        | false =>
          simp [memo, kept, cached, hs] at hm
          subst hm
          have hw : ∃ w, statOf cfg env' sumOfWeights = .val w := by
            simp only [result, Out.hist.injEq] at ho
            obtain ⟨w, hw, -⟩ := bind_val_of ho
            exact ⟨w, hw⟩
          obtain ⟨w, hw⟩ := hw
          rw [ho]
          simp [result, e2, hw, Res.bind, hs]
      | _ => simp [memo, kept, cached] at hm
    all_goals rfl
  | withCumulMedian | withCumulWeightedMedian =>
    cases c with
    | cumulMedian d m =>
      cases d with
      | true => simp [memo, kept, cached] at hm
      | false =>
        simp [memo, kept, cached] at hm
        subst hm
        rw [ho]
        rfl
    | stat s =>
      cases c' with
      | stat s' => exact congrArg Out.num (e2 _)
      | _ => cases h
    | _ =>
      cases c' with
      | cumulMedian d m => simp [core] at h
      | stat s' => simp [core] at h
      | _ => rfl
  | _ => cases hk

/-- What an extraction keeps is what it returns, or was kept before. -/
theorem settle_memo (cfg : Cfg K) (env : Env StdF (Cell K)) (p : K) (rd : StdF → Out K) {f : StdF} {c : Cell K}
    {o : Out K} (h : memo f (settle cfg env rd f c) = some o) :
    memo f c = some o ∨ (keeps f = true ∧ memo f c = Option.none ∧ result cfg env p rd f c = o) := by
  cases f with
  | density =>
    cases c with
    | dens s =>
      simp only [settle] at h
      split at h
      · rename_i r hr
        obtain ⟨s', rfl, h'⟩ := bind_val_of hr
        cases hs : s'.dirty with
        | true =>
          right
          refine ⟨rfl, by simp [memo, kept, cached, hs], ?_⟩
          simp only [result, Res.bind, h']
          unfold densityQuery at h'
          dsimp only at h'
          rw [if_pos hs] at h'
          obtain ⟨hist, -, h'⟩ := Res.bind_eq_val.1 h'
          injection h' with h'
          subst h'
          simpa [memo, kept, cached] using h
        | false =>
          left
          unfold densityQuery at h'
          dsimp only at h'
          rw [if_neg (by simp [hs])] at h'
          injection h' with h'
          subst h'
          simpa [memo, kept, cached, hs] using h
      · exact Or.inl h
    | _ => exact Or.inl h
  | weightedDensity =>
    cases c with
    | wdens s =>
      simp only [settle] at h
      split at h
      · rename_i r hr
        obtain ⟨w, hw, hr⟩ := bind_val_of hr
        obtain ⟨s', rfl, h'⟩ := bind_val_of hr
        cases hs : s'.dirty with
        | true =>
          right
          refine ⟨rfl, by simp [memo, kept, cached, hs], ?_⟩
          simp only [result, Res.bind, hw, h']
          unfold wdensityQuery at h'
          dsimp only at h'
          rw [if_pos hs] at h'
          obtain ⟨hist, -, h'⟩ := Res.bind_eq_val.1 h'
          injection h' with h'
          subst h'
          simpa [memo, kept, cached] using h
        | false =>
          left
          unfold wdensityQuery at h'
          dsimp only at h'
          rw [if_neg (by simp [hs])] at h'
          injection h' with h'
          subst h'
          simpa [memo, kept, cached, hs] using h
      · exact Or.inl h
    | _ => exact Or.inl h
  | pSquareCumul =>
    cases c with
    | cumul s =>
      cases s with
      | val s =>
        simp only [settle] at h
        split at h
        · rename_i hs
          split at h
          · rename_i r hr
            right
            refine ⟨rfl, by simp [memo, kept, cached, hs], ?_⟩
            simpa [result, Res.bind, hs, hr, memo, kept, cached] using h
          · exact Or.inl h
        · exact Or.inl h
      | _ => exact Or.inl h
    | _ => exact Or.inl h
  | weightedPSquareCumul =>
    cases c with
    | wcumul s =>
      cases s with
      | val s =>
        simp only [settle] at h
        split at h
        · rename_i hs
          split at h
          · rename_i r hr
            obtain ⟨w, hw, hr⟩ := bind_val_of hr
            right
            refine ⟨rfl, by simp [memo, kept, cached, hs], ?_⟩
            simpa [result, Res.bind, hs, hw, hr, memo, kept, cached] using h
          · exact Or.inl h
        · exact Or.inl h
      | _ => exact Or.inl h
    | _ => exact Or.inl h
  | withCumulMedian | withCumulWeightedMedian =>
    cases c with
    | cumulMedian d m =>
      cases d with
      | false => exact Or.inl h
      | true =>
        simp only [settle, if_true] at h
        split at h
        · rename_i r hr
          right
          refine ⟨rfl, by simp [memo, kept, cached], ?_⟩
          simpa [result, hr, memo, kept, cached] using h
        · exact Or.inl h
    | _ => exact Or.inl h
  | tail side =>
    cases c with
    | tail s => cases s <;> exact Or.inl h
    | _ => exact Or.inl h
  | withDensityMedian | withDensityWeightedMedian =>
    cases c with
    | densMedian s d m =>
      simp only [settle] at h
      split at h
      · split at h <;> exact Or.inl h
      · exact Or.inl h
    | _ => exact Or.inl h
  | peaksOverThreshold side => cases c <;> exact Or.inl h
  | weightedPeaksOverThreshold side =>
    cases c with
    | wpot s =>
      simp only [settle] at h
      split at h <;> exact Or.inl h
    | _ => exact Or.inl h
  | peaksOverThresholdProb side =>
    cases c with
    | potProb mu sigma2 tp fit d =>
      simp only [settle] at h
      split at h <;> exact Or.inl h
    | _ => exact Or.inl h
  | weightedPeaksOverThresholdProb side =>
    cases c with
    | potProb mu sigma2 tp fit d =>
      simp only [settle] at h
      split at h
      · split at h
        · exact Or.inl h
        · split at h <;> exact Or.inl h
        · exact Or.inl h
      · exact Or.inl h
    | _ => exact Or.inl h
  | _ => exact Or.inl h

end
end Cell
end Acc
