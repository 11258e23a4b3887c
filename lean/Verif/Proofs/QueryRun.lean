import Verif.Proofs.QueryMain
import Verif.Props.FullSet

/-!
# Histories of pushes and extractions
-/

set_option linter.unusedSectionVars false

namespace Acc

open StdF

namespace Cell

section
variable {K : Type} [Field K] [LinearOrder K] [IsStrictOrderedRing K] [FloorRing K]

/-- What a `result()` extracts is a declared dependency, or the tail. -/
theorem reads_deps (f : StdF) (c : Cell K) : ∀ k ∈ reads f c, k = abstractTail ∨ k ∈ f.depBases.map key := by
  cases f with
  | withDensityMedian => cases c <;> simp [reads, depBases, key]
  | withDensityWeightedMedian => cases c <;> simp [reads, depBases, key]
  | withCumulMedian => cases c <;> simp [reads, depBases, key]
  | withCumulWeightedMedian => cases c <;> simp [reads, depBases, key]
  | peaksOverThresholdProb => cases c <;> simp [reads]
  | weightedPeaksOverThresholdProb =>
    cases c with
    | potProb mu sigma2 tp fit d =>
      intro k hk
      simp only [reads] at hk
      split at hk
      · simp at hk; rcases hk with rfl | rfl <;> simp [depBases, key]
      · simp at hk
    | _ => simp [reads]
  | _ => simp [reads, depBases, key]

theorem steady_tail {D : Prop} {env : Env StdF (Cell K)} (hd : Keyed env) (m : ℕ) : Steady D env m abstractTail := by
  cases m with
  | zero => trivial
  | succ m =>
    intro f c he
    have := hd _ _ _ he
    cases f <;> first | (cases this; done) | simp [Spec.sticky, reads]

theorem steady_of {S : List (Tag StdF)} {as : List (FArgs K)} {env : Env StdF (Cell K)}
    (hnd : (S.map stdLib.tkey).Nodup) (hdom : Dom S env) (htot : Total S env) (m : ℕ) :
    ∀ t, Spec.Independent S as t → Steady (Spec.samples as).Nodup env m (stdLib.tkey t) := by
  induction m with
  | zero => intro t _; trivial
  | succ m ih =>
    intro t ht f c hc
    obtain ⟨c1, h1⟩ := htot t ht.mem
    rw [h1] at hc
    injection hc with hc
    injection hc with e1 e2
    subst e1
    have hT : ∀ side, Spec.alongTail t.base = some side →
        (Spec.samples as).Nodup ∧ ∃ c, env abstractTail = some (.tail side, c) := by
      intro side hs
      obtain ⟨u, hu, hb⟩ := ht.tail t (Or.inl rfl) side hs
      obtain ⟨c2, h2⟩ := htot u hu
      refine ⟨ht.ties t (Or.inl rfl) side hs, c2, ?_⟩
      rw [← hb, ← h2, Lib.tkey, hb]
      rfl
    refine ⟨ht.sticky t (Or.inl rfl), fun v side e => hT side (by rw [e]; rfl), fun side e => hT side (by rw [e]; rfl), ?_⟩
    intro k' hk'
    rcases reads_deps _ _ k' hk' with rfl | hd
    · exact steady_tail hdom.keyed m
    · rcases he : env k' with _ | ⟨g, c3⟩
      · cases m with
        | zero => trivial
        | succ m => intro f c hc; rw [he] at hc; cases hc
      · obtain ⟨e, heS, hek, -⟩ := hdom _ _ _ he
        obtain ⟨d, hd1, hd2⟩ := List.mem_map.1 hd
        have hdm : (⟨d, false⟩ : Tag StdF) ∈ stdLib.deps t.base := List.mem_map.2 ⟨d, hd1, rfl⟩
        have hdk : stdLib.tkey ⟨d, false⟩ = stdLib.tkey e := by rw [hek]; exact hd2
        have hsub : ∀ x, x = e ∨ Spec.Uses stdLib S e x → x = t ∨ Spec.Uses stdLib S t x := by
          rintro x (rfl | hx)
          · exact Or.inr (.direct heS hdm hdk)
          · exact Or.inr (.step heS hdm hdk hx)
        rw [← hek]
        exact ih e ⟨heS, fun x hx => ht.sticky x (hsub x hx), fun x hx => ht.tail x (hsub x hx),
          fun x hx => ht.ties x (hsub x hx)⟩

theorem Agree.refl {cfg : Cfg K} {S : List (Tag StdF)} {as : List (FArgs K)} {env : Env StdF (Cell K)}
    (h : Plain cfg S as env) : Agree cfg S as env env where
  dom := h.dom
  total := h.total
  core := rfl
  tails := h.tails
  memo k f c c' o hc _ hm := by
    rw [h.fresh k f c hc] at hm
    cases hm

section run
variable {cfg : Cfg K} (hcache : 1 ≤ cfg.tailCache) {S : List (Tag StdF)} (hnd : (S.map stdLib.tkey).Nodup)
  (hdrop : ∀ t ∈ S, t.drop = false) {refs : StdF → ℕ}

include hcache hnd hdrop in
theorem plain_push {as : List (FArgs K)} {env : Env StdF (Cell K)} (h : Plain cfg S as env) (a : FArgs K) :
    Plain cfg S (as ++ [a]) (stdLib.pushX (fullImpl cfg) S refs S env a) := by
  obtain ⟨h1, h2⟩ := h.tails.pushAll hcache hnd hdrop (refs := refs) (a := a) h.dom h.total
  exact ⟨dom_push S (fun t ht => ht) h.dom, h2, h1, freshEnv_push hdrop h.dom⟩

include hcache hnd hdrop in
theorem agree_push {as : List (FArgs K)} {env env' : Env StdF (Cell K)} (h : Agree cfg S as env env')
    (h' : Plain cfg S as env') (a : FArgs K) :
    Agree cfg S (as ++ [a]) (stdLib.pushX (fullImpl cfg) S refs S env a)
      (stdLib.pushX (fullImpl cfg) S refs S env' a) := by
  obtain ⟨h1, h2⟩ := h.tails.pushAll hcache hnd hdrop (refs := refs) (a := a) h.dom h.total
  refine ⟨dom_push S (fun t ht => ht) h.dom, h2, (push_core cfg S refs a S h.dom.keyed h'.dom.keyed h.core).1, h1, ?_⟩
  intro k f c c' o hc _ hm
  rw [freshEnv_push hdrop h.dom k f c hc] at hm
  cases hm

include hcache hnd hdrop in
/-- After any history the set agrees with the one that has seen the pushes only. -/
theorem agree_run (ops : List (QueryOp K)) : ∀ {as : List (FArgs K)} {env env' env1 : Env StdF (Cell K)},
    Agree cfg S as env env' → Plain cfg S as env' → queryRun cfg S refs env ops = .val env1 →
    Agree cfg S (as ++ QueryOp.pushes ops) env1 ((QueryOp.pushes ops).foldl (stdLib.pushX (fullImpl cfg) S refs S) env') ∧
      Plain cfg S (as ++ QueryOp.pushes ops)
        ((QueryOp.pushes ops).foldl (stdLib.pushX (fullImpl cfg) S refs S) env') := by
  induction ops with
  | nil =>
    intro as env env' env1 h h' hr
    injection hr with hr
    subst hr
    simpa [QueryOp.pushes] using ⟨h, h'⟩
  | cons op ops ih =>
    intro as env env' env1 h h' hr
    rw [queryRun, List.foldlM_cons] at hr
    obtain ⟨env2, h2, hr⟩ := Res.bind_eq_val.1 hr
    cases op with
    | push a =>
      injection h2 with h2
      subst h2
      have := ih (agree_push hcache hnd hdrop (refs := refs) h h' a) (plain_push hcache hnd hdrop (refs := refs) h' a) hr
      simpa [QueryOp.pushes] using this
    | extract k p =>
      simp only [queryStep] at h2
      split at h2
      · cases h2
      · injection h2 with h2
        subst h2
        have := ih ((extractN_agree h' p (rank k + 1) k env (by omega) h).1) h' hr
        simpa [QueryOp.pushes] using this

end run

theorem construct_dom (I : Impl StdF (Cell K) (FArgs K)) (S req : List (Tag StdF)) : Dom S (stdLib.construct I S req).env := by
  intro k f c hc
  unfold Lib.construct at hc
  dsimp only at hc
  cases h : S.find? fun t => decide (stdLib.tkey t = k) with
  | none => rw [h] at hc; cases hc
  | some t =>
    rw [h] at hc
    injection hc with hc
    injection hc with e1 e2
    exact ⟨t, List.mem_of_find?_eq_some h, by simpa using List.find?_some h, e1⟩

end
end Cell
end Acc
