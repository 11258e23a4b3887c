import Verif.Model.QuerySet
import Verif.Proofs.FullStep

/-!
# What extraction does not change

The members of an accumulator without those that `result()` writes (`core`): pushes compute the new ones from the old
ones.
-/

set_option linter.unusedSectionVars false

namespace Acc

open StdF

section
variable {K : Type} [Field K] [LinearOrder K] [IsStrictOrderedRing K] [FloorRing K]

/-- A function of the value of a computation. -/
def Res.over {α β : Type} (f : α → β) (r : Res α) : Res β := r.bind fun a => .val (f a)

def DensitySt.core (s : DensitySt K) : DensitySt K := { s with cnt := 0, hist := [], dirty := true }
def WDensitySt.core (s : WDensitySt K) : WDensitySt K := { s with wsum := 0, hist := [], dirty := true }
def PsqCumulSt.core (s : PsqCumulSt K) : PsqCumulSt K := { s with hist := [], dirty := true }
def WPsqCumulSt.core (s : WPsqCumulSt K) : WPsqCumulSt K := { s with hist := [], dirty := true }

namespace Cell

/-- The members that `result()` does not change; of the tail, of what is cached with it, and of the accumulators that
remember earlier extractions only that they are there. -/
def core : Cell K → Cell K
  | .dens s => .dens (s.over DensitySt.core)
  | .wdens s => .wdens (s.over WDensitySt.core)
  | .cumul s => .cumul (s.over PsqCumulSt.core)
  | .wcumul s => .wcumul (s.over WPsqCumulSt.core)
  | .densMedian _ _ _ => .densMedian 0 true 0
  | .cumulMedian _ _ => .cumulMedian true 0
  | .tail _ => .tail .ub
  | .variates _ => .variates .ub
  | .weights _ => .weights .ub
  | .pot _ => .pot (potInit .left 0)
  | .wpot _ => .wpot (wpotInit .left 0)
  | .potProb _ _ _ _ _ => .potProb .ub .ub 0 (.ub, .ub, .ub) true
  | c => c

def coreEnv (env : Env StdF (Cell K)) : Env StdF (Cell K) := fun k => (env k).map fun c => (c.1, core c.2)

theorem coreEnv_some {env : Env StdF (Cell K)} {k f : StdF} {c : Cell K} (h : env k = some (f, c)) :
    coreEnv env k = some (f, core c) := by
  unfold coreEnv
  rw [h]
  rfl

theorem coreEnv_none {env : Env StdF (Cell K)} {k : StdF} (h : env k = Option.none) : coreEnv env k = Option.none := by
  unfold coreEnv
  rw [h]
  rfl

theorem core_core (c : Cell K) : core (core c) = core c := by
  cases c with
  | dens s => cases s <;> rfl
  | wdens s => cases s <;> rfl
  | cumul s => cases s <;> rfl
  | wcumul s => cases s <;> rfl
  | _ => rfl

theorem statEnv_core (env : Env StdF (Cell K)) : statEnv (coreEnv env) = statEnv env := by
  funext k
  unfold statEnv coreEnv
  rcases env k with _ | ⟨f, c⟩
  · rfl
  · cases c <;> rfl

theorem countOf_core (env : Env StdF (Cell K)) : countOf (coreEnv env) = countOf env := by
  unfold countOf
  rw [statEnv_core]

theorem statOf_core (cfg : Cfg K) (env : Env StdF (Cell K)) (k : StdF) :
    statOf cfg (coreEnv env) k = statOf cfg env k := by
  unfold statOf
  rw [statEnv_core]

theorem windowOf_core (env : Env StdF (Cell K)) : windowOf (coreEnv env) = windowOf env := by
  unfold windowOf coreEnv
  rcases env rollingWindowPlus1 with _ | ⟨f, c⟩
  · rfl
  · cases c <;> rfl

theorem withWindow_core (env : Env StdF (Cell K)) (g : Ring K → Res K) :
    withWindow (coreEnv env) g = withWindow env g := by
  unfold withWindow
  rw [windowOf_core]

/-- Every accumulator is found under the feature it provides. -/
def Keyed (env : Env StdF (Cell K)) : Prop := ∀ k f c, env k = some (f, c) → key f = k

theorem keyed_core {env : Env StdF (Cell K)} (h : Keyed env) : Keyed (coreEnv env) := by
  intro k f c hc
  unfold coreEnv at hc
  rcases he : env k with _ | ⟨f', c'⟩
  · rw [he] at hc; cases hc
  · rw [he] at hc
    injection hc with hc
    injection hc with h1 h2
    subst h1
    exact h k f' c' he

/-- The result of the rolling sum. -/
theorem readN_rollingSum (cfg : Cfg K) {env : Env StdF (Cell K)} (h : Keyed env) (p : K) (m : ℕ) :
    readN cfg (coreEnv env) p m rollingSum = readN cfg env p m rollingSum := by
  cases m with
  | zero => rfl
  | succ m =>
    unfold readN
    rcases he : env rollingSum with _ | ⟨f, c⟩
    · rw [coreEnv_none he]
    · rw [coreEnv_some he]
      have hf : f = rollingSum := by
        have := h _ _ _ he
        cases f <;> first | rfl | cases this
      subst hf
      cases c with
      | stat c =>
        show Out.num (statOf cfg (coreEnv env) _) = Out.num (statOf cfg env _)
        rw [statOf_core]
      | _ => rfl

theorem readN_rollingMean (cfg : Cfg K) {env : Env StdF (Cell K)} (h : Keyed env) (p : K) (m : ℕ) :
    readN cfg (coreEnv env) p m rollingMean = readN cfg env p m rollingMean := by
  cases m with
  | zero => rfl
  | succ m =>
    unfold readN
    rcases he : env rollingMean with _ | ⟨f, c⟩
    · rw [coreEnv_none he]
    · rw [coreEnv_some he]
      have hf : f = rollingMean ∨ f = lazyRollingMean ∨ f = immediateRollingMean := by
        have := h _ _ _ he
        cases f <;> first | (cases this; done) | simp
      rcases hf with rfl | rfl | rfl
      · cases c with
        | stat c =>
          show Out.num (statOf cfg (coreEnv env) _) = Out.num (statOf cfg env _)
          rw [statOf_core]
        | _ => rfl
      · have e : Out.num (withWindow (coreEnv env) fun b => lazyRollingMeanResult b (readN cfg (coreEnv env) p m .rollingSum).asNum)
            = Out.num (withWindow env fun b => lazyRollingMeanResult b (readN cfg env p m .rollingSum).asNum) := by
          rw [withWindow_core, readN_rollingSum cfg h]
        cases c with
        | stat c =>
          show Out.num (statOf cfg (coreEnv env) _) = Out.num (statOf cfg env _)
          rw [statOf_core]
        | _ => exact e
      · cases c with
        | stat c =>
          show Out.num (statOf cfg (coreEnv env) _) = Out.num (statOf cfg env _)
          rw [statOf_core]
        | _ => rfl

end Cell

theorem densityStep_core (n : ℕ) (mn mx : K) (s : DensitySt K) (x : K) :
    (densityStep n mn mx s.core x).over DensitySt.core = (densityStep n mn mx s x).over DensitySt.core := by
  unfold densityStep DensitySt.core Res.over
  dsimp only
  by_cases hn : n ≤ s.cacheSize
  · simp only [if_pos hn]
    generalize setAt s.cache (n - 1) x = c
    cases c with
    | val c =>
      simp only [Res.val_bind]
      split
      · cases fdiv mn (1 : K) <;> try rfl
        cases fdiv mx (1 : K) <;> try rfl
        simp only [Res.val_bind]
        generalize fdiv _ (s.numBins : K) = d
        cases d <;> try rfl
        simp only [Res.val_bind]
        generalize foldRes _ s.bins c = d
        cases d <;> rfl
      · split
        · generalize binAdd _ s.pos s.bins _ _ = d
          cases d <;> rfl
        · rfl
    | _ => rfl
  · simp only [if_neg hn, Res.val_bind]
    split
    · omega
    · split
      · generalize binAdd _ s.pos s.bins _ _ = d
        cases d <;> rfl
      · rfl

theorem wdensityStep_core (n : ℕ) (w mn mx : K) (s : WDensitySt K) (x : K × K) :
    (wdensityStep n w mn mx s.core x).over WDensitySt.core = (wdensityStep n w mn mx s x).over WDensitySt.core := by
  unfold wdensityStep WDensitySt.core Res.over
  dsimp only
  by_cases hn : n ≤ s.cacheSize
  · simp only [if_pos hn]
    generalize setAt s.cache (n - 1) x = c
    cases c with
    | val c =>
      simp only [Res.val_bind]
      split
      · cases fdiv mn (1 : K) <;> try rfl
        cases fdiv mx (1 : K) <;> try rfl
        simp only [Res.val_bind]
        generalize fdiv _ (s.numBins : K) = d
        cases d <;> try rfl
        simp only [Res.val_bind]
        generalize foldRes _ s.bins c = d
        cases d <;> rfl
      · split
        · generalize binAdd _ s.pos s.bins _ _ = d
          cases d <;> rfl
        · rfl
    | _ => rfl
  · simp only [if_neg hn, Res.val_bind]
    split
    · omega
    · split
      · generalize binAdd _ s.pos s.bins _ _ = d
        cases d <;> rfl
      · rfl

namespace Cell

theorem over_if {α β : Type} (f : α → β) (n : ℕ) (r : Res α) :
    (if n = 0 then Res.ub else r).over f = if n = 0 then Res.ub else r.over f := by split <;> rfl

theorem over_bind {α β γ : Type} (f : β → γ) (r : Res α) (g : α → Res β) :
    (r.bind g).over f = r.bind fun a => (g a).over f := by cases r <;> rfl

/-- The own members after an update depend on the members before the update that `result()` does not change. -/
theorem step_core (cfg : Cfg K) {env : Env StdF (Cell K)} (h : Keyed env) (a : FArgs K) (f : StdF)
    (own : Option (StdF × Cell K)) :
    core (step cfg (coreEnv env) a f (own.map fun c => (c.1, core c.2))) = core (step cfg env a f own) := by
  cases he : elementary f with
  | true => rw [step_elem _ _ he, step_elem _ _ he, statEnv_core]
  | false =>
    rcases own with _ | ⟨g, c⟩
    · cases f <;> first | (cases he; done) | rfl
    · have hm : ∀ m, readN cfg (coreEnv env) 0 m rollingMean = readN cfg env 0 m rollingMean :=
        readN_rollingMean cfg h 0
      have hm' : read cfg (coreEnv env) 0 rollingMean = read cfg env 0 rollingMean := hm _
      cases f with
      | rollingWindowPlus1 => cases c <;> rfl
      | rollingSum => cases c <;> first | rfl | (simp only [step, Option.map, core, withWindow_core])
      | rollingMoment m => cases c <;> first | rfl | (simp only [step, Option.map, core, withWindow_core])
      | immediateRollingMean => cases c <;> first | rfl | (simp only [step, Option.map, core, withWindow_core])
      | rollingMean => cases c <;> first | rfl | (simp only [step, Option.map, core, withWindow_core])
      | rollingVariance =>
        cases c <;> first | rfl | (simp only [step, Option.map, core, windowOf_core, hm'])
      | immediateRollingVariance =>
        cases c <;> first | rfl | (simp only [step, Option.map, core, windowOf_core, hm'])
      | density =>
        cases c with
        | dens s =>
          simp only [step, Option.map, core, countOf_core, statOf_core, over_if, over_bind]
          cases s with
          | val s =>
            show Cell.dens (if countOf env = 0 then Res.ub else (statOf cfg env .min).bind fun mn =>
              (statOf cfg env .max).bind fun mx => (densityStep (countOf env) mn mx s.core a.x).over DensitySt.core) = _
            simp only [densityStep_core]
            rfl
          | _ => rfl
        | _ => rfl
      | weightedDensity =>
        cases c with
        | wdens s =>
          simp only [step, Option.map, core, countOf_core, statOf_core, over_if, over_bind]
          cases s with
          | val s =>
            show Cell.wdens (if countOf env = 0 then Res.ub else (statOf cfg env .min).bind fun mn =>
              (statOf cfg env .max).bind fun mx => (statOf cfg env .sumOfWeights).bind fun w =>
                (wdensityStep (countOf env) w mn mx s.core (a.x, a.w)).over WDensitySt.core) = _
            simp only [wdensityStep_core]
            rfl
          | _ => rfl
        | _ => rfl
      | pSquareCumul =>
        cases c with
        | cumul s =>
          simp only [step, Option.map, core, countOf_core, over_if, over_bind]
          cases s <;> rfl
        | _ => rfl
      | weightedPSquareCumul =>
        cases c with
        | wcumul s =>
          simp only [step, Option.map, core, countOf_core, statOf_core, over_if, over_bind]
          cases s <;> rfl
        | _ => rfl
      | pSquareQuantile => cases c <;> first | rfl | (simp only [step, Option.map, core, countOf_core])
      | pSquareQuantileForMedian => cases c <;> first | rfl | (simp only [step, Option.map, core, countOf_core])
      | extendedPSquare => cases c <;> first | rfl | (simp only [step, Option.map, core, countOf_core])
      | weightedPSquareQuantile =>
        cases c <;> first | rfl | (simp only [step, Option.map, core, countOf_core, statOf_core])
      | weightedPSquareQuantileForMedian =>
        cases c <;> first | rfl | (simp only [step, Option.map, core, countOf_core, statOf_core])
      | weightedExtendedPSquare =>
        cases c <;> first | rfl | (simp only [step, Option.map, core, countOf_core, statOf_core])
      | tailVariate v sd => exact core_core c
      | tailWeights sd => exact core_core c
      | _ => first | (cases he; done) | rfl | (cases c <;> rfl)

theorem write_core (cfg : Cfg K) (f : StdF) (env : Env StdF (Cell K)) (a : FArgs K) (t : Tag StdF) (c : Cell K) :
    core (write cfg f env a t c) = core c := by
  obtain ⟨g, d⟩ := t
  unfold write
  split
  · split <;> rfl
  · split <;> rfl
  · rfl

/-- What `write` does to the members that are not changed by `result()`. -/
theorem write_core' (cfg : Cfg K) (f : StdF) (env : Env StdF (Cell K)) (a : FArgs K) (t : Tag StdF) (c : Cell K) :
    core (write cfg f (coreEnv env) a t (core c)) = core (write cfg f env a t c) := by
  rw [write_core, write_core, core_core]

/-- A visit. -/
theorem visit_core (cfg : Cfg K) (S : List (Tag StdF)) (refs : StdF → ℕ) (a : FArgs K) {env : Env StdF (Cell K)}
    (h : Keyed env) (t : Tag StdF) :
    coreEnv (stdLib.visitX (fullImpl cfg) S refs a (coreEnv env) t)
      = coreEnv (stdLib.visitX (fullImpl cfg) S refs a env t) := by
  unfold Lib.visitX
  split
  · funext k
    unfold coreEnv
    rcases env k with _ | ⟨f, c⟩
    · rfl
    · simp [core_core]
  · funext k
    show Option.map _ _ = Option.map _ _
    dsimp only
    split
    · show some (t.base, core (step cfg (coreEnv env) a t.base (coreEnv env (key t.base))))
        = some (t.base, core (step cfg env a t.base (env (key t.base))))
      rw [← step_core cfg h a t.base (env (key t.base))]
      rfl
    · split
      · rename_i t' _
        show Option.map _ (Option.map _ (Option.map _ (env k))) = Option.map _ (Option.map _ (env k))
        rcases env k with _ | ⟨f, c⟩
        · rfl
        · exact congrArg (fun c => some (f, c)) (write_core' cfg t.base env a t' c)
      · show Option.map _ (Option.map _ (env k)) = Option.map _ (env k)
        rcases env k with _ | ⟨f, c⟩
        · rfl
        · simp [core_core]

theorem keyed_visit (cfg : Cfg K) (S : List (Tag StdF)) (refs : StdF → ℕ) (a : FArgs K) {env : Env StdF (Cell K)}
    (h : Keyed env) (t : Tag StdF) : Keyed (stdLib.visitX (fullImpl cfg) S refs a env t) := by
  intro k f c hc
  unfold Lib.visitX at hc
  split at hc
  · exact h k f c hc
  · dsimp only at hc
    split at hc
    · rename_i hk
      injection hc with hc
      injection hc with h1 h2
      rw [← h1, hk]
      rfl
    · split at hc
      · rcases he : env k with _ | ⟨f', c'⟩
        · rw [he] at hc; cases hc
        · rw [he] at hc
          injection hc with hc
          injection hc with h1 h2
          rw [← h1]
          exact h k f' c' he
      · exact h k f c hc

/-- Pushes into two sets that differ only in what `result()` changes. -/
theorem push_core (cfg : Cfg K) (S : List (Tag StdF)) (refs : StdF → ℕ) (a : FArgs K) (S' : List (Tag StdF))
    {env env' : Env StdF (Cell K)} (h : Keyed env) (h' : Keyed env') (he : coreEnv env = coreEnv env') :
    coreEnv (stdLib.pushX (fullImpl cfg) S refs S' env a) = coreEnv (stdLib.pushX (fullImpl cfg) S refs S' env' a) ∧
      Keyed (stdLib.pushX (fullImpl cfg) S refs S' env a) ∧ Keyed (stdLib.pushX (fullImpl cfg) S refs S' env' a) := by
  induction S' generalizing env env' with
  | nil => exact ⟨he, h, h'⟩
  | cons t S' ih =>
    unfold Lib.pushX at ih ⊢
    rw [List.foldl_cons, List.foldl_cons]
    refine ih (keyed_visit cfg S refs a h t) (keyed_visit cfg S refs a h' t) ?_
    rw [← visit_core cfg S refs a h t, ← visit_core cfg S refs a h' t, he]

end Cell
end
end Acc
