import Verif.Proofs.QueryTail
import Verif.Spec.Sticky

/-!
# Extraction between pushes: the set with extractions and the set without
-/

set_option linter.unusedSectionVars false

namespace Acc

open StdF

namespace Cell

section
variable {K : Type} [Field K] [LinearOrder K] [IsStrictOrderedRing K] [FloorRing K]

theorem reads_rank (f : StdF) (c : Cell K) : ∀ k ∈ reads f c, rank k < rank (key f) := by
  cases f with
  | withDensityMedian => cases c <;> simp [reads, rank, key]
  | withDensityWeightedMedian => cases c <;> simp [reads, rank, key]
  | withCumulMedian => cases c <;> simp [reads, rank, key]
  | withCumulWeightedMedian => cases c <;> simp [reads, rank, key]
  | peaksOverThresholdProb => cases c <;> simp [reads, rank, key]
  | weightedPeaksOverThresholdProb =>
    cases c with
    | potProb mu sigma2 tp fit d =>
      cases d with
      | false => simp [reads]
      | true => intro k hk; simp [reads] at hk; rcases hk with rfl | rfl <;> simp [rank, key]
    | _ => simp [reads]
  | _ => simp [reads, rank, key]

theorem densityQuery_core {s : DensitySt K} {n : ℕ} {r : DensitySt K × List (K × Res K)}
    (h : densityQuery { s with cnt := n } = .val r) : r.1.core = s.core := by
  unfold densityQuery at h
  dsimp only at h
  split at h
  · obtain ⟨hist, -, h⟩ := Res.bind_eq_val.1 h
    injection h with h
    subst h
    rfl
  · injection h with h
    subst h
    rfl

theorem wdensityQuery_core {s : WDensitySt K} {w : K} {r : WDensitySt K × List (K × Res K)}
    (h : wdensityQuery { s with wsum := w } = .val r) : r.1.core = s.core := by
  unfold wdensityQuery at h
  dsimp only at h
  split at h
  · obtain ⟨hist, -, h⟩ := Res.bind_eq_val.1 h
    injection h with h
    subst h
    rfl
  · injection h with h
    subst h
    rfl

/-- `result()` does not change the members that pushes work with. -/
theorem settle_core (cfg : Cfg K) (env : Env StdF (Cell K)) (rd : StdF → Out K) (f : StdF) (c : Cell K) :
    core (settle cfg env rd f c) = core c := by
  cases f with
  | density =>
    cases c with
    | dens s =>
      simp only [settle]
      split
      · rename_i r h
        obtain ⟨s', rfl, h⟩ := bind_val_of h
        exact congrArg (fun s => Cell.dens (.val s)) (densityQuery_core h)
      · rfl
    | _ => rfl
  | weightedDensity =>
    cases c with
    | wdens s =>
      simp only [settle]
      split
      · rename_i r h
        obtain ⟨w, -, h⟩ := bind_val_of h
        obtain ⟨s', rfl, h⟩ := bind_val_of h
        exact congrArg (fun s => Cell.wdens (.val s)) (wdensityQuery_core h)
      · rfl
    | _ => rfl
  | pSquareCumul =>
    cases c with
    | cumul s =>
      cases s with
      | val s =>
        simp only [settle]
        split
        · split <;> rfl
        · rfl
      | _ => rfl
    | _ => rfl
  | weightedPSquareCumul =>
    cases c with
    | wcumul s =>
      cases s with
      | val s =>
        simp only [settle]
        split
        · split <;> rfl
        · rfl
      | _ => rfl
    | _ => rfl
  | withDensityMedian =>
    cases c with
    | densMedian s d m =>
      simp only [settle]
      split
      · split <;> rfl
      · rfl
    | _ => rfl
  | withDensityWeightedMedian =>
    cases c with
    | densMedian s d m =>
      simp only [settle]
      split
      · split <;> rfl
      · rfl
    | _ => rfl
  | withCumulMedian =>
    cases c with
    | cumulMedian d m =>
      simp only [settle]
      split
      · split <;> rfl
      · rfl
    | _ => rfl
  | withCumulWeightedMedian =>
    cases c with
    | cumulMedian d m =>
      simp only [settle]
      split
      · split <;> rfl
      · rfl
    | _ => rfl
  | tail side =>
    cases c with
    | tail s => cases s <;> rfl
    | _ => rfl
  | peaksOverThreshold side => cases c <;> rfl
  | weightedPeaksOverThreshold side =>
    cases c with
    | wpot s => simp only [settle]; split <;> rfl
    | _ => rfl
  | peaksOverThresholdProb side =>
    cases c with
    | potProb mu sigma2 tp fit d => simp only [settle]; split <;> rfl
    | _ => rfl
  | weightedPeaksOverThresholdProb side =>
    cases c with
    | potProb mu sigma2 tp fit d =>
      simp only [settle]
      split
      · split
        · rfl
        · split <;> rfl
        · rfl
      · rfl
    | _ => rfl
  | _ => rfl

/-- The tail is the only one whose members are part of `TailsOk` that `result()` changes. -/
theorem settle_cached (cfg : Cfg K) (env : Env StdF (Cell K)) (rd : StdF → Out K) {f : StdF} (c : Cell K)
    (h : cached f = true) : settle cfg env rd f c = c := by
  cases f <;> first | (cases h; done) | rfl

/-- Two sets that agree in what pushes work with. -/
theorem count_eq {env env' : Env StdF (Cell K)} (h : coreEnv env = coreEnv env') : countOf env = countOf env' := by
  rw [← countOf_core env, h, countOf_core]

theorem stat_eq (cfg : Cfg K) {env env' : Env StdF (Cell K)} (h : coreEnv env = coreEnv env') (k : StdF) :
    statOf cfg env k = statOf cfg env' k := by
  rw [← statOf_core cfg env, h, statOf_core]

theorem window_eq {env env' : Env StdF (Cell K)} (h : coreEnv env = coreEnv env') : windowOf env = windowOf env' := by
  rw [← windowOf_core env, h, windowOf_core]

theorem core_at {env env' : Env StdF (Cell K)} (h : coreEnv env = coreEnv env') {k f : StdF} {c : Cell K}
    (hc : env k = some (f, c)) : ∃ c', env' k = some (f, c') ∧ core c = core c' := by
  have e := congrFun h k
  rw [coreEnv_some hc] at e
  unfold coreEnv at e
  rcases he : env' k with _ | ⟨f', c'⟩
  · rw [he] at e; cases e
  · rw [he] at e
    injection e with e
    injection e with e1 e2
    have e1' : f = f' := e1
    subst e1'
    exact ⟨c', rfl, e2⟩

/-- The results that are kept are those that would be computed in `env'`. -/
def MemoOk (cfg : Cfg K) (env env' : Env StdF (Cell K)) : Prop :=
  ∀ k f c c' o, env k = some (f, c) → env' k = some (f, c') → memo f c = some o →
    ∀ p m, 1 ≤ m → result cfg env' p (readN cfg env' p m) f c' = o

/-- The set `env` after pushes `as` and extractions, and the set `env'` after the pushes only. -/
structure Agree (cfg : Cfg K) (S : List (Tag StdF)) (as : List (FArgs K)) (env env' : Env StdF (Cell K)) : Prop where
  dom : Dom S env
  total : Total S env
  core : coreEnv env = coreEnv env'
  tails : TailsOk cfg as env
  memo : MemoOk cfg env env'

/-- The set after the pushes `as` only. -/
structure Plain (cfg : Cfg K) (S : List (Tag StdF)) (as : List (FArgs K)) (env : Env StdF (Cell K)) : Prop where
  dom : Dom S env
  total : Total S env
  tails : TailsOk cfg as env
  fresh : FreshEnv env

/-- The extraction of `k` involves nothing that depends on earlier extractions, and is not affected by ties (`D`: the
samples are distinct). -/
def Steady (D : Prop) (env : Env StdF (Cell K)) : ℕ → StdF → Prop
  | 0, _ => True
  | m + 1, k => ∀ f c, env k = some (f, c) → Spec.sticky f = false ∧
      (∀ v side, f = tailVariate v side → D ∧ ∃ c, env abstractTail = some (.tail side, c)) ∧
      (∀ side, f = tailWeights side → D ∧ ∃ c, env abstractTail = some (.tail side, c)) ∧
      ∀ k' ∈ reads f c, Steady D env m k'

/-- The histogram of the `P²` cells does not depend on the arguments of the extractor. -/
theorem cumul_hist (cfg : Cfg K) {env : Env StdF (Cell K)} (hd : Keyed env) (p p' : K) {m m' : ℕ} (hm : 1 ≤ m)
    (hm' : 1 ≤ m') : (readN cfg env p m pSquareCumul).asHist = (readN cfg env p' m' pSquareCumul).asHist := by
  obtain ⟨m, rfl⟩ : ∃ n, m = n + 1 := ⟨m - 1, by omega⟩
  obtain ⟨m', rfl⟩ : ∃ n, m' = n + 1 := ⟨m' - 1, by omega⟩
  unfold readN
  rcases he : env pSquareCumul with _ | ⟨f, c⟩
  · rfl
  · have := hd _ _ _ he
    have hf : f = pSquareCumul ∨ f = weightedPSquareCumul := by
      cases f <;> first | (cases this; done) | simp
    rcases hf with rfl | rfl <;> cases c <;> rfl

theorem steady_cumul {D : Prop} {env : Env StdF (Cell K)} (hd : Keyed env) (m : ℕ) : Steady D env m pSquareCumul := by
  cases m with
  | zero => trivial
  | succ m =>
    intro f c he
    have := hd _ _ _ he
    have hf : f = pSquareCumul ∨ f = weightedPSquareCumul := by
      cases f <;> first | (cases this; done) | simp
    rcases hf with rfl | rfl <;> simp [Spec.sticky, reads]

end
end Cell
end Acc
