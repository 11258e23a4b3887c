import Verif.Props.StdSets

/-!
# Accumulators that work together

If every accumulator, once those it uses hold what they should, ends a push holding what it should, then the whole
set holds what it should after any stream.
-/

set_option linter.unusedSectionVars false

namespace Acc

variable {F σ A : Type} [DecidableEq F] {L : Lib F}

/-- What stands before `u` is in the part of the list before `u`. -/
theorem before_mem_pre {S pre post : List (Tag F)} {u t : Tag F} (hn : (S.map L.tkey).Nodup)
    (hS : S = pre ++ u :: post) (h : Spec.Before S t u) : t ∈ pre := by
  obtain ⟨x, y, z, e⟩ := h
  have hn' : S.Nodup := List.Nodup.of_map _ hn
  have e1 : pre ++ u :: post = (x ++ t :: y) ++ u :: z := by rw [← hS, e]
  have hpre : u ∉ pre := by
    intro h
    rw [hS, List.nodup_append] at hn'
    exact hn'.2.2 u h u (by simp) rfl
  have hpre2 : u ∉ x ++ t :: y := by
    intro h
    rw [hS, e1, List.nodup_append] at hn'
    exact hn'.2.2 u h u (by simp) rfl
  rw [List.append_eq_append_iff] at e1
  rcases e1 with ⟨as, h1, h2⟩ | ⟨bs, h1, h2⟩
  · cases as with
    | nil => rw [List.append_nil] at h1; rw [← h1]; simp
    | cons c as =>
      simp only [List.cons_append, List.cons.injEq] at h2
      exact absurd (by rw [h1, h2.1]; simp) hpre2
  · cases bs with
    | nil => rw [List.append_nil] at h1; rw [h1]; simp
    | cons c bs =>
      simp only [List.cons_append, List.cons.injEq] at h2
      exact absurd (by rw [h1, h2.1]; simp) hpre

/-- Later accumulators do not change earlier ones. -/
theorem pushEnv_prefix (I : Impl F σ A) {S pre post : List (Tag F)} {t : Tag F} (refs : F → ℕ) (env : Env F σ) (a : A)
    (hn : (S.map L.tkey).Nodup) (hS : S = pre ++ post) (ht : t ∈ pre) :
    L.pushEnv I S refs env a (L.tkey t) = L.pushEnv I pre refs env a (L.tkey t) := by
  subst hS
  rw [Lib.pushEnv_append, Lib.pushEnv_of_notMem I post]
  rw [List.map_append, List.nodup_append] at hn
  exact fun hc => hn.2.2 _ (List.mem_map.2 ⟨t, ht, rfl⟩) _ hc rfl

/-- `t` is `u` or used by it. -/
def Below (L : Lib F) (S : List (Tag F)) (u t : Tag F) : Prop := t = u ∨ Spec.Uses L S u t

theorem Below.trans {S : List (Tag F)} {u t e : Tag F} (h : Below L S u t) (h' : Spec.Uses L S t e) :
    Below L S u e := by
  rcases h with rfl | h
  · exact Or.inr h'
  · exact Or.inr (uses_trans h h')

theorem Below.mem {S : List (Tag F)} {u t : Tag F} (hu : u ∈ S) (h : Below L S u t) : t ∈ S := by
  rcases h with rfl | h
  · exact hu
  · exact uses_mem h

/-- The accumulator `t` is installed and its state is one that it should have after the pushes `as`. -/
def Holds (L : Lib F) (Good : F → List A → σ → Prop) (as : List A) (env : Env F σ) (t : Tag F) : Prop :=
  ∃ s, env (L.tkey t) = some (t.base, s) ∧ Good t.base as s

/-- What an accumulator has to guarantee. -/
def StepOk (L : Lib F) (I : Impl F σ A) (S : List (Tag F)) (Good : F → List A → σ → Prop) (t : Tag F) : Prop :=
  ∀ as a env, Holds L Good as env t → (∀ e, Spec.Uses L S t e → Holds L Good (as ++ [a]) env e) →
    Good t.base (as ++ [a]) (I.upd t.base env a)

theorem push_holds (hL : L.Ok) {I : Impl F σ A} {S : List (Tag F)} (hnd : (S.map L.tkey).Nodup)
    (hord : Spec.Ordered L S) {Good : F → List A → σ → Prop} (hstep : ∀ t ∈ S, StepOk L I S Good t)
    {refs : F → ℕ} {u : Tag F} (hu : u ∈ S) (hal : AllAlive L S refs u) {as : List A} {env : Env F σ}
    (h : ∀ t, Below L S u t → Holds L Good as env t) (a : A) (t : Tag F) :
    Below L S u t → Holds L Good (as ++ [a]) (L.pushEnv I S refs env a) t := by
  induction t using Lib.rank_induction (L := L) with
  | h t ih =>
    intro ht
    have htS := ht.mem hu
    obtain ⟨pre, post, hS⟩ := List.append_of_mem htS
    have hself : L.tkey t ∉ pre.map L.tkey := by
      have hn := hnd
      rw [hS, List.map_append, List.nodup_append] at hn
      exact fun hc => hn.2.2 _ hc _ (by simp) rfl
    have e1 : L.pushEnv I S refs env a (L.tkey t)
        = some (t.base, I.upd t.base (L.pushEnv I pre refs env a) a) := by
      rw [hS, Lib.pushEnv_at I (by rw [← hS]; exact hnd), if_neg]
      simpa using hal t ht
    refine ⟨_, e1, hstep t htS as a _ ?_ fun e he => ?_⟩
    · obtain ⟨s, h1, h2⟩ := h t ht
      exact ⟨s, by rw [Lib.pushEnv_of_notMem I pre refs env a hself, h1], h2⟩
    · obtain ⟨s, h1, h2⟩ := ih e (uses_rank hL he) (ht.trans he)
      refine ⟨s, ?_, h2⟩
      rw [← pushEnv_prefix I refs env a hnd hS (before_mem_pre hnd hS (hord t htS e (uses_mem he) he)), h1]

/-- If every accumulator starts as it should and every update does its part, then after any pushes everything a
requested accumulator uses is as it should be. -/
theorem runs_hold (hL : L.Ok) {I : Impl F σ A} {S : List (Tag F)} (hnd : (S.map L.tkey).Nodup)
    (hord : Spec.Ordered L S) {Good : F → List A → σ → Prop} (hinit : ∀ t ∈ S, Good t.base [] (I.init t.base))
    (hstep : ∀ t ∈ S, StepOk L I S Good t) {req : List (Tag F)} {u : Tag F} (hu : u ∈ S)
    (hreq : Spec.Mentions L req (L.tkey u)) (as : List A) :
    ∃ s, L.runOps I S (L.construct I S req) (as.map SetOp.push) = .val s ∧
      ∀ t, Below L S u t → Holds L Good as s.env t := by
  refine ⟨_, runOps_pushes I S _ as, ?_⟩
  have hal : AllAlive L S (L.construct I S req).refs u := initRefs_alive hL hu hreq (Or.inl rfl)
  revert hal
  generalize hs0 : L.construct I S req = s0
  intro hal
  show ∀ t, Below L S u t → Holds L Good as (as.foldl (L.pushEnv I S s0.refs) s0.env) t
  induction as using List.reverseRecOn with
  | nil =>
    intro t ht
    refine ⟨_, ?_, hinit t (ht.mem hu)⟩
    rw [← hs0]
    exact Lib.construct_at I hnd req (ht.mem hu)
  | append_singleton as a ih =>
    intro t ht
    rw [List.foldl_append]
    exact push_holds hL hnd hord hstep hu hal ih a t ht

end Acc
