import Verif.Proofs.Refs

/-! # Lemmas about pushing to a set and dropping from it -/

set_option linter.unusedSectionVars false

namespace Acc

variable {F σ A : Type} [DecidableEq F] {L : Lib F}

namespace Lib

theorem pushEnv_append (I : Impl F σ A) (S S' : List (Tag F)) (refs : F → ℕ) (env : Env F σ) (a : A) :
    L.pushEnv I (S ++ S') refs env a = L.pushEnv I S' refs (L.pushEnv I S refs env a) a := by
  simp [pushEnv, List.foldl_append]

theorem visit1_of_ne (I : Impl F σ A) (refs : F → ℕ) (a : A) (env : Env F σ) {t : Tag F} {k : F}
    (h : L.tkey t ≠ k) : L.visit1 I refs a env t k = env k := by
  unfold visit1
  split
  · rfl
  · exact Function.update_of_ne (Ne.symm h) _ _

theorem pushEnv_of_notMem (I : Impl F σ A) (S : List (Tag F)) (refs : F → ℕ) (env : Env F σ) (a : A) {k : F}
    (h : k ∉ S.map L.tkey) : L.pushEnv I S refs env a k = env k := by
  induction S generalizing env with
  | nil => rfl
  | cons t S ih =>
    rw [List.map_cons, List.mem_cons, not_or] at h
    rw [pushEnv, List.foldl_cons, ← pushEnv, ih _ h.2, visit1_of_ne I refs a env (Ne.symm h.1)]

/-- What a push does to one accumulator: it sees the accumulators before it already updated. -/
theorem pushEnv_at (I : Impl F σ A) {pre post : List (Tag F)} {t : Tag F}
    (hnd : ((pre ++ t :: post).map L.tkey).Nodup) (refs : F → ℕ) (env : Env F σ) (a : A) :
    L.pushEnv I (pre ++ t :: post) refs env a (L.tkey t) =
      if t.drop && decide (refs (L.tkey t) = 0) then env (L.tkey t)
      else some (t.base, I.upd t.base (L.pushEnv I pre refs env a) a) := by
  rw [List.map_append, List.map_cons, List.nodup_append, List.nodup_cons] at hnd
  obtain ⟨-, ⟨h2, -⟩, h3⟩ := hnd
  have hpre : L.tkey t ∉ pre.map L.tkey := fun h => h3 _ h _ (by simp) rfl
  rw [pushEnv_append, pushEnv, List.foldl_cons, ← pushEnv, pushEnv_of_notMem I post refs _ a h2, visit1]
  split
  · exact pushEnv_of_notMem I pre refs env a hpre
  · exact Function.update_self _ _ _

/-- The accumulators of a set stay where they are. -/
def Seated (L : Lib F) (S : List (Tag F)) (env : Env F σ) : Prop :=
  ∀ t ∈ S, ∃ s, env (L.tkey t) = some (t.base, s)

theorem seated_visit1 (I : Impl F σ A) {S : List (Tag F)} (hnd : (S.map L.tkey).Nodup) (refs : F → ℕ) (a : A)
    {env : Env F σ} (h : Seated L S env) {t : Tag F} (ht : t ∈ S) : Seated L S (L.visit1 I refs a env t) := by
  intro t' ht'
  by_cases e : L.tkey t = L.tkey t'
  · obtain rfl := List.inj_on_of_nodup_map hnd ht ht' e
    unfold visit1
    split
    · exact h t ht
    · exact ⟨_, Function.update_self _ _ _⟩
  · rw [visit1_of_ne I refs a env e]
    exact h t' ht'

theorem seated_pushEnv (I : Impl F σ A) {S : List (Tag F)} (hnd : (S.map L.tkey).Nodup) (refs : F → ℕ) (a : A)
    {env : Env F σ} (h : Seated L S env) {S' : List (Tag F)} (hS : ∀ t ∈ S', t ∈ S) :
    Seated L S (L.pushEnv I S' refs env a) := by
  induction S' generalizing env with
  | nil => exact h
  | cons t S' ih =>
    exact ih (seated_visit1 I hnd refs a h (hS t (by simp))) fun t' ht' => hS t' (by simp [ht'])

theorem construct_at (I : Impl F σ A) {S : List (Tag F)} (hnd : (S.map L.tkey).Nodup) (req : List (Tag F))
    {t : Tag F} (ht : t ∈ S) : (L.construct I S req).env (L.tkey t) = some (t.base, I.init t.base) := by
  have := find_eq hnd ht (f := t) rfl
  unfold construct
  dsimp only
  have e : (S.find? fun t' => decide (L.tkey t' = L.tkey t)) = some t := by
    rw [← this, find]
    congr 1
    funext t'
    rw [decide_eq_decide]
    exact eq_comm
  rw [e]
  rfl

theorem seated_construct (I : Impl F σ A) {S : List (Tag F)} (hnd : (S.map L.tkey).Nodup) (req : List (Tag F)) :
    Seated L S (L.construct I S req).env :=
  fun _ ht => ⟨_, construct_at I hnd req ht⟩

/-! ### Dropping only decreases counts -/

theorem foldlM_le {β : Type} {f : (F → ℕ) → β → Res (F → ℕ)} (hf : ∀ b c c', f c b = .val c' → ∀ k, c' k ≤ c k)
    (l : List β) (c c' : F → ℕ) (h : l.foldlM f c = .val c') (k : F) : c' k ≤ c k := by
  induction l generalizing c with
  | nil =>
    simp only [List.foldlM_nil, Res.pure_eq, Res.val.injEq] at h
    rw [h]
  | cons b l ih =>
    rw [List.foldlM_cons] at h
    cases hb : f c b with
    | val c1 =>
      rw [hb, Res.val_bind] at h
      exact (ih c1 h).trans (hf b c c1 hb k)
    | nonfinite => rw [hb] at h; cases h
    | thrown => rw [hb] at h; cases h
    | ub => rw [hb] at h; cases h
    | diverges => rw [hb] at h; cases h

theorem drop1_le {c c' : F → ℕ} {t : Tag F} (h : L.drop1 c t = .val c') (k : F) : c' k ≤ c k := by
  unfold drop1 at h
  split at h
  · split at h
    · cases h
    · injection h with h
      subst h
      by_cases hk : k = L.tkey t
      · subst hk; simp
      · rw [Function.update_of_ne hk]
  · injection h with h
    rw [h]

theorem dropRef_le (S : List (Tag F)) (n : ℕ) : ∀ (t : Tag F) (c c' : F → ℕ),
    L.dropRef S n c t = .val c' → ∀ k, c' k ≤ c k := by
  induction n with
  | zero =>
    intro t c c' h k
    rw [dropRef] at h
    injection h with h
    rw [h]
  | succ n ih =>
    intro t c c' h k
    rw [dropRef] at h
    split at h
    · cases hb : L.drop1 c t with
      | val c1 =>
        rw [hb, Res.val_bind] at h
        exact (foldlM_le ih _ _ _ h k).trans (drop1_le hb k)
      | nonfinite => rw [hb] at h; cases h
      | thrown => rw [hb] at h; cases h
      | ub => rw [hb] at h; cases h
      | diverges => rw [hb] at h; cases h
    · injection h with h
      rw [h]

theorem dropFeature_le {S : List (Tag F)} {c c' : F → ℕ} {f : Tag F} (h : L.dropFeature S c f = .val c') (k : F) :
    c' k ≤ c k := by
  unfold dropFeature at h
  split at h
  · cases h
  · rename_i t _
    cases hb : L.drop1 c t with
    | val c1 =>
      rw [hb, Res.val_bind] at h
      exact (foldlM_le (fun b c c' => dropRef_le S _ b c c') _ _ _ h k).trans (drop1_le hb k)
    | nonfinite => rw [hb] at h; cases h
    | thrown => rw [hb] at h; cases h
    | ub => rw [hb] at h; cases h
    | diverges => rw [hb] at h; cases h

end Lib

end Acc
