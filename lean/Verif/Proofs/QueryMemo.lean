import Verif.Proofs.QueryCore

/-!
# What extraction remembers

`memo`: the result an accumulator will return without computing it.  After a push there is none.
-/

set_option linter.unusedSectionVars false

namespace Acc

open StdF

namespace Cell

section
variable {K : Type} [Field K] [LinearOrder K] [IsStrictOrderedRing K] [FloorRing K]

/-- The result kept by members from the last extraction. -/
def kept : Cell K → Option (Out K)
  | .dens (.val s) => if s.dirty then Option.none else some (.hist (.val s.hist))
  | .wdens (.val s) => if s.dirty then Option.none else some (.hist (.val s.hist))
  | .cumul (.val s) => if s.dirty then Option.none else some (.hist (.val s.hist))
  | .wcumul (.val s) => if s.dirty then Option.none else some (.hist (.val s.hist))
  | .cumulMedian d m => if d then Option.none else some (.num (.val m))
  | _ => Option.none

/-- The result an accumulator keeps from the last extraction. -/
def memo (f : StdF) (c : Cell K) : Option (Out K) := if cached f then Option.none else kept c

/-- Nothing is remembered. -/
def FreshEnv (env : Env StdF (Cell K)) : Prop := ∀ k f c, env k = some (f, c) → memo f c = Option.none

theorem densityStep_dirty {n : ℕ} {mn mx : K} {s s' : DensitySt K} {x : K} (h : densityStep n mn mx s x = .val s') :
    s'.dirty = true := by
  unfold densityStep at h
  dsimp only at h
  split at h <;>
  · obtain ⟨c, -, h⟩ := Res.bind_eq_val.1 h
    split at h
    · obtain ⟨_, -, h⟩ := Res.bind_eq_val.1 h
      obtain ⟨_, -, h⟩ := Res.bind_eq_val.1 h
      obtain ⟨_, -, h⟩ := Res.bind_eq_val.1 h
      obtain ⟨_, -, h⟩ := Res.bind_eq_val.1 h
      injection h with h
      subst h
      rfl
    · split at h
      · obtain ⟨_, -, h⟩ := Res.bind_eq_val.1 h
        injection h with h
        subst h
        rfl
      · injection h with h
        subst h
        rfl

theorem wdensityStep_dirty {n : ℕ} {w mn mx : K} {s s' : WDensitySt K} {x : K × K}
    (h : wdensityStep n w mn mx s x = .val s') : s'.dirty = true := by
  unfold wdensityStep at h
  dsimp only at h
  split at h <;>
  · obtain ⟨c, -, h⟩ := Res.bind_eq_val.1 h
    split at h
    · obtain ⟨_, -, h⟩ := Res.bind_eq_val.1 h
      obtain ⟨_, -, h⟩ := Res.bind_eq_val.1 h
      obtain ⟨_, -, h⟩ := Res.bind_eq_val.1 h
      obtain ⟨_, -, h⟩ := Res.bind_eq_val.1 h
      injection h with h
      subst h
      rfl
    · split at h
      · obtain ⟨_, -, h⟩ := Res.bind_eq_val.1 h
        injection h with h
        subst h
        rfl
      · injection h with h
        subst h
        rfl

theorem kept_dens {r : Res (DensitySt K)} (h : ∀ s, r = .val s → s.dirty = true) : kept (.dens r) = Option.none := by
  cases r with
  | val s => simp [kept, h s rfl]
  | _ => rfl

theorem kept_wdens {r : Res (WDensitySt K)} (h : ∀ s, r = .val s → s.dirty = true) : kept (.wdens r) = Option.none := by
  cases r with
  | val s => simp [kept, h s rfl]
  | _ => rfl

theorem kept_cumul {r : Res (PsqCumulSt K)} (h : ∀ s, r = .val s → s.dirty = true) : kept (.cumul r) = Option.none := by
  cases r with
  | val s => simp [kept, h s rfl]
  | _ => rfl

theorem kept_wcumul {r : Res (WPsqCumulSt K)} (h : ∀ s, r = .val s → s.dirty = true) :
    kept (.wcumul r) = Option.none := by
  cases r with
  | val s => simp [kept, h s rfl]
  | _ => rfl

theorem bind_val_of {α β : Type} {r : Res α} {g : α → Res β} {b : β} (h : r.bind g = .val b) :
    ∃ a, r = .val a ∧ g a = .val b := by
  cases r with
  | val a => exact ⟨a, rfl, h⟩
  | _ => cases h

/-- After an update nothing is remembered. -/
theorem step_fresh (cfg : Cfg K) (env : Env StdF (Cell K)) (a : FArgs K) (f : StdF) (own : Option (StdF × Cell K)) :
    memo f (step cfg env a f own) = Option.none := by
  unfold memo
  cases hc : cached f with
  | true => rfl
  | false =>
  rw [if_neg (by simp)]
  cases he : elementary f with
  | true => rw [step_elem _ _ he]; rfl
  | false =>
    rcases own with _ | ⟨g, c⟩
    · cases f <;> first | (cases he; done) | rfl
    · cases f with
      | density =>
        cases c with
        | dens s =>
          simp only [step]
          refine kept_dens fun s' h => ?_
          split at h
          · cases h
          · obtain ⟨mn, -, h⟩ := bind_val_of h
            obtain ⟨mx, -, h⟩ := bind_val_of h
            obtain ⟨s, -, h⟩ := bind_val_of h
            exact densityStep_dirty h
        | _ => rfl
      | weightedDensity =>
        cases c with
        | wdens s =>
          simp only [step]
          refine kept_wdens fun s' h => ?_
          split at h
          · cases h
          · obtain ⟨mn, -, h⟩ := bind_val_of h
            obtain ⟨mx, -, h⟩ := bind_val_of h
            obtain ⟨w, -, h⟩ := bind_val_of h
            obtain ⟨s, -, h⟩ := bind_val_of h
            exact wdensityStep_dirty h
        | _ => rfl
      | pSquareCumul =>
        cases c with
        | cumul s =>
          simp only [step]
          refine kept_cumul fun s' h => ?_
          split at h
          · cases h
          · obtain ⟨s, -, h⟩ := bind_val_of h
            obtain ⟨m, -, h⟩ := bind_val_of h
            injection h with h
            subst h
            rfl
        | _ => rfl
      | weightedPSquareCumul =>
        cases c with
        | wcumul s =>
          simp only [step]
          refine kept_wcumul fun s' h => ?_
          split at h
          · cases h
          · obtain ⟨w, -, h⟩ := bind_val_of h
            obtain ⟨s, -, h⟩ := bind_val_of h
            obtain ⟨m, -, h⟩ := bind_val_of h
            injection h with h
            subst h
            rfl
        | _ => rfl
      | rollingVariance =>
        cases c with
        | rollVar v => simp only [step]; split <;> rfl
        | _ => rfl
      | immediateRollingVariance =>
        cases c with
        | rollVar v => simp only [step]; split <;> rfl
        | _ => rfl
      | tailVariate v sd => cases hc
      | tailWeights sd => cases hc
      | _ => first | (cases he; done) | rfl | (cases c <;> rfl)

theorem write_kept (cfg : Cfg K) (f : StdF) (env : Env StdF (Cell K)) (a : FArgs K) (t : Tag StdF) (c : Cell K) :
    kept (write cfg f env a t c) = kept c := by
  obtain ⟨g, d⟩ := t
  unfold write
  split
  · split <;> rfl
  · split <;> rfl
  · rfl

theorem write_memo (cfg : Cfg K) (g f : StdF) (env : Env StdF (Cell K)) (a : FArgs K) (t : Tag StdF) (c : Cell K) :
    memo g (write cfg f env a t c) = memo g c := by
  unfold memo
  rw [write_kept]

theorem start_memo (cfg : Cfg K) (f : StdF) : memo f (start cfg f) = Option.none := by
  cases f <;> rfl

/-- The accumulators of the set, each under the feature it provides. -/
def Dom (S : List (Tag StdF)) (env : Env StdF (Cell K)) : Prop :=
  ∀ k f c, env k = some (f, c) → ∃ t ∈ S, stdLib.tkey t = k ∧ t.base = f

theorem Dom.keyed {S : List (Tag StdF)} {env : Env StdF (Cell K)} (h : Dom S env) : Keyed env := by
  intro k f c hc
  obtain ⟨t, -, h1, h2⟩ := h k f c hc
  rw [← h1, ← h2]
  rfl

theorem dom_visit {cfg : Cfg K} {S : List (Tag StdF)} {refs : StdF → ℕ} {a : FArgs K} {env : Env StdF (Cell K)}
    (h : Dom S env) {t : Tag StdF} (ht : t ∈ S) : Dom S (stdLib.visitX (fullImpl cfg) S refs a env t) := by
  intro k f c hc
  unfold Lib.visitX at hc
  split at hc
  · exact h k f c hc
  · dsimp only at hc
    split at hc
    · rename_i hk
      injection hc with hc
      injection hc with h1 h2
      exact ⟨t, ht, hk.symm, h1⟩
    · split at hc
      · rcases he : env k with _ | ⟨f', c'⟩
        · rw [he] at hc; cases hc
        · rw [he] at hc
          injection hc with hc
          injection hc with h1 h2
          rw [← h1]
          exact h k f' c' he
      · exact h k f c hc

/-- Nothing is remembered by the accumulators that have been visited. -/
theorem fresh_push {cfg : Cfg K} {S : List (Tag StdF)} {refs : StdF → ℕ} (hdrop : ∀ t ∈ S, t.drop = false) {a : FArgs K}
    (S' : List (Tag StdF)) (hS : ∀ t ∈ S', t ∈ S) {env : Env StdF (Cell K)} :
    ∀ k f c, stdLib.pushX (fullImpl cfg) S refs S' env a k = some (f, c) →
      (k ∈ S'.map stdLib.tkey ∨ ∀ f c, env k = some (f, c) → memo f c = Option.none) → memo f c = Option.none := by
  induction S' generalizing env with
  | nil =>
    intro k f c hc h
    rcases h with h | h
    · simp at h
    · exact h f c hc
  | cons t S' ih =>
    intro k f c hc h
    rw [Lib.pushX, List.foldl_cons, ← Lib.pushX] at hc
    refine ih (fun t ht => hS t (by simp [ht])) k f c hc ?_
    by_cases hk : k ∈ S'.map stdLib.tkey
    · exact Or.inl hk
    · right
      intro f' c' hc'
      unfold Lib.visitX at hc'
      rw [if_neg (by simp [hdrop t (hS t (by simp))])] at hc'
      split at hc'
      · injection hc' with hc'
        injection hc' with h1 h2
        rw [← h2, ← h1]
        exact step_fresh cfg env a t.base _
      · rename_i hkt
        have hold : ∀ f c, env k = some (f, c) → memo f c = Option.none := by
          rcases h with h | h
          · rw [List.map_cons, List.mem_cons] at h
            rcases h with h | h
            · exact absurd h hkt
            · exact absurd h hk
          · exact h
        split at hc'
        · rcases he : env k with _ | ⟨f1, c1⟩
          · rw [he] at hc'; cases hc'
          · rw [he] at hc'
            injection hc' with hc'
            injection hc' with h1 h2
            rw [← h2, ← h1]
            show memo f1 (write _ _ _ _ _ _) = _
            rw [write_memo]
            exact hold f1 c1 he
        · exact hold f' c' hc'

theorem dom_push {cfg : Cfg K} {S : List (Tag StdF)} {refs : StdF → ℕ} {a : FArgs K} (S' : List (Tag StdF))
    (hS : ∀ t ∈ S', t ∈ S) {env : Env StdF (Cell K)} (h : Dom S env) :
    Dom S (stdLib.pushX (fullImpl cfg) S refs S' env a) := by
  induction S' generalizing env with
  | nil => exact h
  | cons t S' ih =>
    rw [Lib.pushX, List.foldl_cons, ← Lib.pushX]
    exact ih (fun t ht => hS t (by simp [ht])) (dom_visit h (hS t (by simp)))

/-- After a push nothing is remembered. -/
theorem freshEnv_push {cfg : Cfg K} {S : List (Tag StdF)} {refs : StdF → ℕ} (hdrop : ∀ t ∈ S, t.drop = false)
    {a : FArgs K} {env : Env StdF (Cell K)} (h : Dom S env) :
    FreshEnv (stdLib.pushX (fullImpl cfg) S refs S env a) := by
  intro k f c hc
  refine fresh_push hdrop S (fun t ht => ht) k f c hc (Or.inl ?_)
  obtain ⟨t, h1, h2, -⟩ := dom_push S (fun t ht => ht) h k f c hc
  exact List.mem_map.2 ⟨t, h1, h2⟩

end
end Cell
end Acc
