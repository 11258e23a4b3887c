import Verif.Proofs.QueryResult

/-!
# Extraction between pushes does not change later results
-/

set_option linter.unusedSectionVars false

namespace Acc

open StdF

namespace Cell

section
variable {K : Type} [Field K] [LinearOrder K] [IsStrictOrderedRing K] [FloorRing K]

theorem bare_fst (as : List (FArgs K)) : (Spec.bare as).map Prod.fst = Spec.samples as := by
  simp [Spec.bare, Spec.samples, List.map_map, Function.comp_def]

theorem withVariate_fst (v : ℕ) (as : List (FArgs K)) : (Spec.withVariate v as).map Prod.fst = Spec.samples as := by
  simp [Spec.withVariate, Spec.samples, List.map_map, Function.comp_def]

theorem weighted_fst (as : List (FArgs K)) : (Spec.weightedSamples as).map Prod.fst = Spec.samples as := by
  simp [Spec.weightedSamples, Spec.samples, List.map_map, Function.comp_def]

theorem own_join {V : Type} (s : TailSt K V) : s.own.join s.variates = s := rfl

/-- The tail is what it would be without extractions. -/
theorem tail_agree {cfg : Cfg K} {as : List (FArgs K)} {env env' : Env StdF (Cell K)} (h : TailsOk cfg as env)
    (h' : TailsOk cfg as env') {side : Side} {c c' : Cell K} (hc : env abstractTail = some (.tail side, c))
    (hc' : env' abstractTail = some (.tail side, c')) (e1 e2 : Env StdF (Cell K)) (p p' : K) (rd rd' : StdF → Out K) :
    result cfg e1 p rd (.tail side) c = result cfg e2 p' rd' (.tail side) c' := by
  have key : ∀ (env e : Env StdF (Cell K)) c p rd, TailsOk cfg as env → env abstractTail = some (.tail side, c) →
      result cfg e p rd (.tail side) c = .list (.val (Spec.extremes side cfg.tailCache (Spec.samples as))) := by
    intro env e c p rd h hc
    obtain ⟨s, slots, hi, rfl⟩ := h.tail side c hc
    have := tail_unique hi cfg.heap
    rw [bare_fst] at this
    simp only [result, Res.bind]
    rw [← this]
    congr 1
    unfold tailResult tailSort TailOwn.join TailSt.own
    dsimp only
    split <;> rfl
  rw [key env e1 c p rd h hc, key env' e2 c' p' rd' h' hc']

theorem variate_agree {cfg : Cfg K} {as : List (FArgs K)} {env env' : Env StdF (Cell K)} (h : TailsOk cfg as env)
    (h' : TailsOk cfg as env') (hD : (Spec.samples as).Nodup) {side : Side} {v : ℕ} {c c' d d' : Cell K}
    (hc : env abstractTail = some (.tail side, c)) (hc' : env' abstractTail = some (.tail side, c'))
    (hd : env abstractTailVariate = some (.tailVariate v side, d))
    (hd' : env' abstractTailVariate = some (.tailVariate v side, d')) (p p' : K) (rd rd' : StdF → Out K) :
    result cfg env p rd (.tailVariate v side) d = result cfg env' p' rd' (.tailVariate v side) d' := by
  obtain ⟨s, slots, hi, rfl, rfl⟩ := h.variate side v c d hc hd
  obtain ⟨s', slots', hi', rfl, rfl⟩ := h'.variate side v c' d' hc' hd'
  have := out_unique (by rw [withVariate_fst]; exact hD) hi hi' cfg.heap
  simp only [result, tailOf, hc, hc', Res.bind, own_join]
  rw [this]

theorem weights_agree {cfg : Cfg K} {as : List (FArgs K)} {env env' : Env StdF (Cell K)} (h : TailsOk cfg as env)
    (h' : TailsOk cfg as env') (hD : (Spec.samples as).Nodup) {side : Side} {c c' d d' : Cell K}
    (hc : env abstractTail = some (.tail side, c)) (hc' : env' abstractTail = some (.tail side, c'))
    (hd : env abstractTailWeights = some (.tailWeights side, d))
    (hd' : env' abstractTailWeights = some (.tailWeights side, d')) (p p' : K) (rd rd' : StdF → Out K) :
    result cfg env p rd (.tailWeights side) d = result cfg env' p' rd' (.tailWeights side) d' := by
  obtain ⟨s, slots, hi, rfl, rfl⟩ := h.weights side c d hc hd
  obtain ⟨s', slots', hi', rfl, rfl⟩ := h'.weights side c' d' hc' hd'
  have := out_unique (by rw [weighted_fst]; exact hD) hi hi' cfg.heap
  simp only [result, tailOf, hc, hc', Res.bind, own_join]
  rw [this]

theorem keeps_rank {f : StdF} (h : keeps f = true) : 1 ≤ rank (key f) := by
  cases f <;> first | (cases h; done) | decide

theorem keeps_reads {f : StdF} (h : keeps f = true) (c : Cell K) : ∀ k ∈ reads f c, k = pSquareCumul ∧ 2 ≤ rank (key f) := by
  cases f with
  | withCumulMedian => cases c <;> simp [reads, rank, key]
  | withCumulWeightedMedian => cases c <;> simp [reads, rank, key]
  | density => simp [reads]
  | weightedDensity => simp [reads]
  | pSquareCumul => simp [reads]
  | weightedPSquareCumul => simp [reads]
  | _ => cases h

/-- The set after `result()` of the accumulator of `k`, the others being settled. -/
theorem agree_settle {cfg : Cfg K} {S : List (Tag StdF)} {as : List (FArgs K)} {env env' : Env StdF (Cell K)}
    (h : Agree cfg S as env env') (h' : Plain cfg S as env') {k f : StdF} {c : Cell K} (hc : env k = some (f, c))
    {p : K} {rd : StdF → Out K} {m : ℕ} (hm : rank k ≤ m)
    (hrd : ∀ k' ∈ reads f c, k' = pSquareCumul → rd k' = readN cfg env' p m k') :
    Agree cfg S as (fun k' => if k' = k then some (f, settle cfg env rd f c) else env k') env' := by
  have hkey := h.dom.keyed _ _ _ hc
  obtain ⟨c', hc', hcc⟩ := core_at h.core hc
  refine ⟨?_, ?_, ?_, ?_, ?_⟩
  · intro k1 f1 c1 h1
    dsimp only at h1
    split at h1
    · rename_i e
      subst e
      injection h1 with h1
      injection h1 with e1 e2
      subst e1
      exact h.dom _ _ _ hc
    · exact h.dom _ _ _ h1
  · intro t ht
    obtain ⟨c1, h1⟩ := h.total t ht
    dsimp only
    split
    · rename_i e
      rw [e, hc] at h1
      injection h1 with h1
      injection h1 with e1 e2
      exact ⟨settle cfg env rd f c, by rw [e1]⟩
    · exact ⟨c1, h1⟩
  · rw [← h.core]
    funext k1
    by_cases e : k1 = k
    · subst e
      rw [coreEnv_some hc, coreEnv_some (c := settle cfg env rd f c) (f := f) (by simp), settle_core]
    · unfold coreEnv
      dsimp only
      rw [if_neg e]
  · by_cases e : ∃ side, f = .tail side
    · obtain ⟨side, rfl⟩ := e
      have e : k = abstractTail := hkey.symm
      subst e
      obtain ⟨s, slots, hi, rfl⟩ := h.tails.tail side c hc
      refine h.tails.sort hc ?_ ?_ ?_
      · simp [settle, TailSt.own]
      · simp
      · simp
    · have hsame : ∀ k' g d, (∀ h : g = f, settle cfg env rd f c = c) →
          (if k' = k then some (f, settle cfg env rd f c) else env k') = some (g, d) → env k' = some (g, d) := by
        intro k' g d hg hd
        split at hd
        · rename_i e1
          injection hd with hd
          injection hd with e2 e3
          rw [hg e2.symm] at e3
          rw [e1, hc, e2, e3]
        · exact hd
      refine h.tails.congr ?_ ?_ ?_
      · intro side d hd
        exact hsame _ _ _ (fun e1 => absurd ⟨side, e1.symm⟩ e) hd
      · intro v side d hd
        exact hsame _ _ _ (fun e1 => settle_cached _ _ _ _ (by rw [← e1]; rfl)) hd
      · intro side d hd
        exact hsame _ _ _ (fun e1 => settle_cached _ _ _ _ (by rw [← e1]; rfl)) hd
  · intro k1 f1 c1 c1' o h1 h1' hmemo p1 m1 hm1
    dsimp only at h1
    split at h1
    · rename_i e
      subst e
      injection h1 with h1
      injection h1 with e1 e2
      subst e1
      subst e2
      rw [hc'] at h1'
      injection h1' with h1'
      injection h1' with _ e3
      subst e3
      rcases settle_memo cfg env p rd hmemo with hmm | ⟨hk, hmm, hr⟩
      · exact h.memo _ _ _ _ _ hc hc' hmm p1 m1 hm1
      · rw [← hr]
        refine (result_fresh cfg h.core p p1 hcc hk hmm (h'.fresh _ _ _ hc') ?_).symm
        intro k2 hk2
        obtain ⟨rfl, h2⟩ := keeps_reads hk c k2 hk2
        rw [hrd _ hk2 rfl]
        rw [hkey] at h2
        exact cumul_hist cfg h'.dom.keyed p p1 (by omega) hm1
    · exact h.memo _ _ _ _ _ h1 h1' hmemo p1 m1 hm1

/-- Extractions, one after the other. -/
theorem readAll_agree {cfg : Cfg K} {S : List (Tag StdF)} {as : List (FArgs K)} {env' : Env StdF (Cell K)} {D : Prop}
    {p : K} {m r : ℕ}
    (ih : ∀ k env, rank k < m → Agree cfg S as env env' → Agree cfg S as (extractN cfg p m k env).1 env' ∧
      (∀ k', rank k < rank k' → (extractN cfg p m k env).1 k' = env k') ∧
      (Steady D env' m k → (extractN cfg p m k env).2 = readN cfg env' p m k))
    (hr : r ≤ m) (ks : List StdF) (hks : ∀ k ∈ ks, rank k < r) {env : Env StdF (Cell K)} (h : Agree cfg S as env env') :
    Agree cfg S as (readAll (extractN cfg p m) ks env).1 env' ∧
      (∀ k', r ≤ rank k' → (readAll (extractN cfg p m) ks env).1 k' = env k') ∧
      ∀ k ∈ ks, Steady D env' m k → (readAll (extractN cfg p m) ks env).2 k = readN cfg env' p m k := by
  induction ks generalizing env with
  | nil => exact ⟨h, fun _ _ => rfl, by simp⟩
  | cons k ks ihk =>
    have hk := hks k (by simp)
    obtain ⟨a1, a2, a3⟩ := ih k env (by omega) h
    obtain ⟨b1, b2, b3⟩ := ihk (fun k' hk' => hks k' (by simp [hk'])) a1
    refine ⟨b1, ?_, ?_⟩
    · intro k' hk'
      exact (b2 k' hk').trans (a2 k' (by omega))
    · intro k' hk' hs
      show (if k' = k then _ else _) = _
      split
      · rename_i e
        subst e
        exact a3 hs
      · rename_i e
        exact b3 k' (by simpa [e] using hk') hs

/-- Extraction leaves a set that agrees with the one without extractions, and returns the same. -/
theorem extractN_agree {cfg : Cfg K} {S : List (Tag StdF)} {as : List (FArgs K)} {env' : Env StdF (Cell K)}
    (h' : Plain cfg S as env') (p : K) (m : ℕ) : ∀ k env, rank k < m → Agree cfg S as env env' →
      Agree cfg S as (extractN cfg p m k env).1 env' ∧
      (∀ k', rank k < rank k' → (extractN cfg p m k env).1 k' = env k') ∧
      (Steady (Spec.samples as).Nodup env' m k → (extractN cfg p m k env).2 = readN cfg env' p m k) := by
  induction m with
  | zero => intro k env hk; omega
  | succ m ih =>
    intro k env hk h
    rcases hc : env k with _ | ⟨f, c⟩
    · have hn : env' k = Option.none := by
        have := congrFun h.core k
        rw [coreEnv_none hc] at this
        unfold coreEnv at this
        cases he : env' k with
        | none => rfl
        | some x => rw [he] at this; cases this
      simp only [extractN, hc, readN, hn]
      exact ⟨h, fun _ _ => trivial, fun _ => trivial⟩
    · have hkey := h.dom.keyed _ _ _ hc
      obtain ⟨c', hc', hcc⟩ := core_at h.core hc
      have hrk : ∀ k' ∈ reads f c, rank k' < rank k := by
        intro k' hk'
        have := reads_rank f c k' hk'
        rwa [hkey] at this
      obtain ⟨b1, b2, b3⟩ := readAll_agree (D := (Spec.samples as).Nodup) ih (r := rank k) (by omega) (reads f c) hrk h
      simp only [extractN, hc]
      generalize readAll (extractN cfg p m) (reads f c) env = R at b1 b2 b3
      have hcR : R.1 k = some (f, c) := by rw [b2 k le_rfl, hc]
      refine ⟨?_, ?_, ?_⟩
      · refine agree_settle b1 h' hcR (p := p) (m := m) (by omega) ?_
        intro k' hk' e
        subst e
        exact b3 _ hk' (steady_cumul h'.dom.keyed m)
      · intro k' hk'
        rw [if_neg (fun e => by subst e; omega)]
        exact b2 k' (by omega)
      · intro hs
        obtain ⟨hs1, hs2, hs3, hs4⟩ := hs f c' hc'
        simp only [readN, hc']
        cases hT : ofTail f with
        | true =>
          cases f with
          | tail side =>
            have e : k = abstractTail := hkey.symm
            subst e
            exact tail_agree b1.tails h'.tails hcR hc' _ _ _ _ _ _
          | tailVariate v side =>
            have e : k = abstractTailVariate := hkey.symm
            subst e
            obtain ⟨hD, ct', hct'⟩ := hs2 v side rfl
            obtain ⟨ct, hct, -⟩ := core_at b1.core.symm hct'
            exact variate_agree b1.tails h'.tails hD hct hct' hcR hc' _ _ _ _
          | tailWeights side =>
            have e : k = abstractTailWeights := hkey.symm
            subst e
            obtain ⟨hD, ct', hct'⟩ := hs3 side rfl
            obtain ⟨ct, hct, -⟩ := core_at b1.core.symm hct'
            exact weights_agree b1.tails h'.tails hD hct hct' hcR hc' _ _ _ _
          | _ => cases hT
        | false =>
          cases hK : keeps f with
          | true =>
            have hk1 := keeps_rank hK
            rw [hkey] at hk1
            cases hmm : memo f c with
            | some o =>
              exact result_kept cfg b1.core p p hcc hK hmm (h.memo _ _ _ _ _ hc hc' hmm p m (by omega))
            | none =>
              refine result_fresh cfg b1.core p p hcc hK hmm (h'.fresh _ _ _ hc') ?_
              intro k' hk'
              obtain ⟨rfl, -⟩ := keeps_reads hK c k' hk'
              rw [b3 _ hk' (steady_cumul h'.dom.keyed m)]
          | false =>
            have hreads : reads f c = reads f c' := by
              rcases core_cases hcc with rfl | ⟨_, _, rfl, rfl⟩ | ⟨_, _, rfl, rfl⟩ | ⟨_, _, rfl, rfl⟩ | ⟨_, _, rfl, rfl⟩ |
                ⟨_, _, _, _, _, _, rfl, rfl⟩ | ⟨_, _, _, _, rfl, rfl⟩ | ⟨_, _, rfl, rfl⟩ | ⟨_, _, rfl, rfl⟩ |
                ⟨_, _, rfl, rfl⟩ | ⟨_, _, rfl, rfl⟩ | ⟨_, _, rfl, rfl⟩ | ⟨_, _, _, _, _, _, _, _, _, _, rfl, rfl⟩
              · rfl
              all_goals
                cases f <;> first
                  | (cases hs1; done)
                  | (cases hK; done)
                  | rfl
            rw [result_env cfg b1.core p c (fun k' hk' => b3 k' hk' (hs4 k' (hreads ▸ hk'))) hs1 hT hK]
            exact result_other cfg env' p _ hcc hs1 hT hK

end
end Cell
end Acc
