import Verif.Proofs.QueryMemo

/-!
# The tail and what is cached with it, when pushes and extractions alternate
-/

set_option linter.unusedSectionVars false

namespace Acc

open StdF

section
variable {α V : Type} [LinearOrder α]

theorem tailSort_vars (H : HeapImpl ℕ) (side : Side) (s : TailSt α V) :
    (tailSort H side s).variates = s.variates := by
  unfold tailSort
  split <;> rfl

theorem tailSort_own (H : HeapImpl ℕ) (side : Side) {W : Type} (s : TailSt α V) (l : List W) :
    (tailSort H side (s.own.join l)).own = (tailSort H side s).own := by
  unfold tailSort TailSt.own TailOwn.join
  dsimp only
  split <;> rfl

/-- If the samples are distinct, what the tail returns, with what is cached along, is determined. -/
theorem out_unique {side : Side} {k : ℕ} {ps : List (α × V)} (hnd : (ps.map Prod.fst).Nodup) {s s' : TailSt α V}
    {slots slots' : List (α × V)} (h : TailSt.Inv side k ps s slots) (h' : TailSt.Inv side k ps s' slots')
    (H : HeapImpl ℕ) : tailVariateResult H side s = tailVariateResult H side s' := by
  obtain ⟨out, -, h2, h3, h4, D, h5, h6⟩ := h.result H
  obtain ⟨out', -, h2', h3', h4', D', h5', h6'⟩ := h'.result H
  rw [h2, h2']
  have e1 : ∀ {out D : List (α × V)}, (out ++ D).Perm ps → out.length = min ps.length k →
      out.Pairwise (fun a b => Spec.geExt side a.1 b.1) → (∀ d ∈ D, ∀ c ∈ out, Spec.geExt side c.1 d.1) →
      out.map Prod.fst = Spec.extremes side k (ps.map Prod.fst) := by
    intro out D hp hl hs hd
    refine eq_extremes (D := D.map Prod.fst) ?_ (by simpa using hl) (List.pairwise_map.2 hs) ?_
    · rw [← List.map_append]
      exact hp.map _
    · intro d hdm c hcm
      obtain ⟨d', hd', rfl⟩ := List.mem_map.1 hdm
      obtain ⟨c', hc', rfl⟩ := List.mem_map.1 hcm
      exact hd d' hd' c' hc'
  have e2 : out.map Prod.fst = out'.map Prod.fst := (e1 h5 h3 h4 h6).trans (e1 h5' h3' h4' h6').symm
  have hinj : ∀ a ∈ ps, ∀ b ∈ ps, a.1 = b.1 → a = b := fun a ha b hb h => List.inj_on_of_nodup_map hnd ha hb h
  have hm : ∀ a ∈ out, a ∈ ps := fun a ha => h5.subset (List.mem_append_left _ ha)
  have hm' : ∀ a ∈ out', a ∈ ps := fun a ha => h5'.subset (List.mem_append_left _ ha)
  have e3 : out = out' := by
    clear h2 h2' h3 h3' h4 h4' h5 h5' h6 h6' e1
    induction out generalizing out' with
    | nil => cases out' with
      | nil => rfl
      | cons b l => simp at e2
    | cons a l ih =>
      cases out' with
      | nil => simp at e2
      | cons b l' =>
        rw [List.map_cons, List.map_cons] at e2
        injection e2 with e3 e4
        rw [hinj a (hm a (by simp)) b (hm' b (by simp)) e3,
          ih l' (by simpa using e4) (fun a ha => hm a (by simp [ha])) (fun a ha => hm' a (by simp [ha]))]
  rw [e3]

/-- What the tail returns is determined. -/
theorem tail_unique {side : Side} {k : ℕ} {ps : List (α × V)} {s : TailSt α V}
    {slots : List (α × V)} (h : TailSt.Inv side k ps s slots) (H : HeapImpl ℕ) :
    tailResult H side s = .val (Spec.extremes side k (ps.map Prod.fst)) := by
  obtain ⟨out, h1, -, h3, h4, D, h5, h6⟩ := h.result H
  rw [h1]
  congr 1
  refine eq_extremes (D := D.map Prod.fst) ?_ (by simpa using h3) (List.pairwise_map.2 h4) ?_
  · rw [← List.map_append]
    exact h5.map _
  · intro d hdm c hcm
    obtain ⟨d', hd', rfl⟩ := List.mem_map.1 hdm
    obtain ⟨c', hc', rfl⟩ := List.mem_map.1 hcm
    exact h6 d' hd' c' hc'

end

namespace Cell

section
variable {K : Type} [Field K] [LinearOrder K] [IsStrictOrderedRing K] [FloorRing K]

/-- The tail, its variates and its weights after the pushes `as`, whatever was extracted. -/
structure TailsOk (cfg : Cfg K) (as : List (FArgs K)) (env : Env StdF (Cell K)) : Prop where
  tail : ∀ side c, env abstractTail = some (.tail side, c) → ∃ (s : TailSt K Unit) (slots : List (K × Unit)),
    TailSt.Inv side cfg.tailCache (Spec.bare as) s slots ∧ c = .tail (.val s.own)
  variate : ∀ side v c d, env abstractTail = some (.tail side, c) →
    env abstractTailVariate = some (.tailVariate v side, d) → ∃ (s : TailSt K (List K)) (slots : List (K × List K)),
    TailSt.Inv side cfg.tailCache (Spec.withVariate v as) s slots ∧ c = .tail (.val s.own) ∧
      d = .variates (.val s.variates)
  weights : ∀ side c d, env abstractTail = some (.tail side, c) →
    env abstractTailWeights = some (.tailWeights side, d) → ∃ (s : TailSt K K) (slots : List (K × K)),
    TailSt.Inv side cfg.tailCache (Spec.weightedSamples as) s slots ∧ c = .tail (.val s.own) ∧
      d = .weights (.val s.variates)

theorem TailsOk.congr {cfg : Cfg K} {as : List (FArgs K)} {env env' : Env StdF (Cell K)} (h : TailsOk cfg as env)
    (h1 : ∀ side c, env' abstractTail = some (.tail side, c) → env abstractTail = some (.tail side, c))
    (h2 : ∀ v side d, env' abstractTailVariate = some (.tailVariate v side, d) →
      env abstractTailVariate = some (.tailVariate v side, d))
    (h3 : ∀ side d, env' abstractTailWeights = some (.tailWeights side, d) →
      env abstractTailWeights = some (.tailWeights side, d)) : TailsOk cfg as env' where
  tail side c hc := h.tail side c (h1 _ _ hc)
  variate side v c d hc hd := h.variate side v c d (h1 _ _ hc) (h2 _ _ _ hd)
  weights side c d hc hd := h.weights side c d (h1 _ _ hc) (h3 _ _ hd)

/-- Extraction of the tail. -/
theorem TailsOk.sort {cfg : Cfg K} {as : List (FArgs K)} {env env' : Env StdF (Cell K)} (h : TailsOk cfg as env)
    {side : Side} {t : TailOwn K} (h0 : env abstractTail = some (.tail side, .tail (.val t)))
    (h1 : env' abstractTail = some (.tail side,
      .tail (.val (tailSort cfg.heap side (t.join ([] : List Unit))).own)))
    (h2 : env' abstractTailVariate = env abstractTailVariate) (h3 : env' abstractTailWeights = env abstractTailWeights) :
    TailsOk cfg as env' where
  tail sd c hc := by
    rw [h1] at hc
    injection hc with hc
    injection hc with e1 e2
    injection e1 with e1
    subst e1
    obtain ⟨s, slots, i1, i2⟩ := h.tail _ _ h0
    injection i2 with i2
    injection i2 with i2
    subst i2
    exact ⟨_, _, (i1.sort cfg.heap).1, by rw [← e2, tailSort_own]⟩
  variate sd v c d hc hd := by
    rw [h1] at hc
    injection hc with hc
    injection hc with e1 e2
    injection e1 with e1
    subst e1
    rw [h2] at hd
    obtain ⟨s, slots, i1, i2, i3⟩ := h.variate _ _ _ _ h0 hd
    injection i2 with i2
    injection i2 with i2
    subst i2
    exact ⟨_, _, (i1.sort cfg.heap).1, by rw [← e2, tailSort_own], by rw [i3, tailSort_vars]⟩
  weights sd c d hc hd := by
    rw [h1] at hc
    injection hc with hc
    injection hc with e1 e2
    injection e1 with e1
    subst e1
    rw [h3] at hd
    obtain ⟨s, slots, i1, i2, i3⟩ := h.weights _ _ _ h0 hd
    injection i2 with i2
    injection i2 with i2
    subst i2
    exact ⟨_, _, (i1.sort cfg.heap).1, by rw [← e2, tailSort_own], by rw [i3, tailSort_vars]⟩

/-- The visit of an accumulator that is not the tail. -/
theorem TailsOk.other {cfg : Cfg K} {S : List (Tag StdF)} {refs : StdF → ℕ} {a : FArgs K} {as : List (FArgs K)}
    {env : Env StdF (Cell K)} (hdom : ∀ t ∈ S, ∃ c, env (stdLib.tkey t) = some (t.base, c))
    (h : TailsOk cfg as env) {t : Tag StdF} (ht : t ∈ S) (hk : stdLib.tkey t ≠ abstractTail) :
    TailsOk cfg as (stdLib.visitX (fullImpl cfg) S refs a env t) := by
  have hw : ∀ t' c, write cfg t.base env a t' c = c := by
    intro t' c
    cases hb : t.base <;> first
      | (exact absurd (by show key t.base = _; rw [hb]; rfl) hk)
      | rfl
  have hsame : ∀ k f c, k ≠ stdLib.tkey t → stdLib.visitX (fullImpl cfg) S refs a env t k = some (f, c) →
      env k = some (f, c) := by
    intro k f c hne hc
    unfold Lib.visitX at hc
    split at hc
    · exact hc
    · dsimp only at hc
      rw [if_neg hne] at hc
      split at hc
      · rcases he : env k with _ | ⟨f', c'⟩
        · rw [he] at hc; cases hc
        · rw [he] at hc
          injection hc with hc
          injection hc with h1 h2
          have h2' : write cfg t.base env a _ c' = c := h2
          rw [hw] at h2'
          have h1' : f' = f := h1
          rw [h1', h2']
      · exact hc
  have hown : ∀ k f c, k = stdLib.tkey t → cached f = true →
      stdLib.visitX (fullImpl cfg) S refs a env t k = some (f, c) → env k = some (f, c) := by
    rintro k f c rfl hf hc
    unfold Lib.visitX at hc
    split at hc
    · exact hc
    · dsimp only at hc
      rw [if_pos rfl] at hc
      injection hc with hc
      injection hc with h1 h2
      obtain ⟨c0, h0⟩ := hdom t ht
      have h2' : step cfg env a t.base (env (stdLib.tkey t)) = c := h2
      rw [h0] at h2' ⊢
      have e : step cfg env a t.base (some (t.base, c0)) = c0 := by
        rw [← h1] at hf
        cases hb : t.base <;> rw [hb] at hf <;> first | (cases hf; done) | rfl
      rw [e] at h2'
      rw [h1, h2']
  refine h.congr (fun side c hc => hsame _ _ _ (Ne.symm hk) hc) (fun v side d hc => ?_) fun side d hc => ?_
  · by_cases h1 : abstractTailVariate = stdLib.tkey t
    · exact hown _ _ _ h1 rfl hc
    · exact hsame _ _ _ h1 hc
  · by_cases h1 : abstractTailWeights = stdLib.tkey t
    · exact hown _ _ _ h1 rfl hc
    · exact hsame _ _ _ h1 hc

/-- The visit of the tail. -/
theorem TailsOk.visit {cfg : Cfg K} (hcache : 1 ≤ cfg.tailCache) {S : List (Tag StdF)} (hnd : (S.map stdLib.tkey).Nodup)
    (hdrop : ∀ t ∈ S, t.drop = false) {refs : StdF → ℕ}
    {a : FArgs K} {as : List (FArgs K)} {env : Env StdF (Cell K)} (hd : Dom S env)
    (hdom : ∀ t ∈ S, ∃ c, env (stdLib.tkey t) = some (t.base, c))
    (h : TailsOk cfg as env) {t : Tag StdF} (ht : t ∈ S) (hk : stdLib.tkey t = abstractTail) :
    TailsOk cfg (as ++ [a]) (stdLib.visitX (fullImpl cfg) S refs a env t) := by
  have hv : ∀ k, stdLib.visitX (fullImpl cfg) S refs a env t k = if k = stdLib.tkey t then
      some (t.base, step cfg env a t.base (env (stdLib.tkey t)))
      else match S.find? fun t' => decide (stdLib.tkey t' = k) with
        | some t' => (env k).map fun c => (c.1, write cfg t.base env a t' c.2)
        | Option.none => env k := by
    intro k
    unfold Lib.visitX
    rw [if_neg (by simp [hdrop t ht])]
    split
    · rfl
    · cases S.find? fun t' => decide (stdLib.tkey t' = k) <;> rfl
  obtain ⟨c0, h0⟩ := hdom t ht
  -- what is written
  have hwr : ∀ k f d, k ≠ abstractTail → stdLib.visitX (fullImpl cfg) S refs a env t k = some (f, d) →
      ∃ d0, env k = some (f, d0) ∧ d = write cfg t.base env a ⟨f, false⟩ d0 := by
    intro k f d hne hc
    rw [hv, if_neg (by rw [hk]; exact hne)] at hc
    rcases he : env k with _ | ⟨f', d'⟩
    · rw [he] at hc
      split at hc <;> cases hc
    · obtain ⟨t', ht', e1, e2⟩ := hd k f' d' he
      rw [he, ← e1, Lib.find_tag hnd ht'] at hc
      injection hc with hc
      injection hc with e3 e4
      have e3' : f' = f := e3
      subst e3'
      refine ⟨d', rfl, ?_⟩
      rw [← e4]
      have : t' = ⟨f', false⟩ := by
        obtain ⟨b, dr⟩ := t'
        have h1 := hdrop _ ht'
        simp only at h1 e2
        rw [h1, e2]
      rw [← this]
  have htl : ∀ side c, stdLib.visitX (fullImpl cfg) S refs a env t abstractTail = some (.tail side, c) →
      t.base = .tail side ∧ env abstractTail = some (.tail side, c0) ∧ c = step cfg env a (.tail side) (env abstractTail) := by
    intro side c hc
    rw [hv, if_pos hk.symm] at hc
    injection hc with hc
    injection hc with e1 e2
    rw [hk, e1] at h0
    rw [hk, e1] at e2
    exact ⟨e1, h0, e2.symm⟩
  refine ⟨fun side c hc => ?_, fun side v c d hc hd' => ?_, fun side c d hc hd' => ?_⟩
  · obtain ⟨e1, e2, e3⟩ := htl side c hc
    obtain ⟨s, slots, i1, i2⟩ := h.tail side c0 e2
    obtain ⟨s', slots', j1, j2⟩ := i1.push cfg.heap hcache (a.x, ())
    refine ⟨s', slots', by simpa [Spec.bare] using j2, ?_⟩
    rw [e3, e2, i2]
    show Cell.tail (TailOwn.next cfg.heap side (.val s.own) a.x) = _
    rw [tailPush_next cfg.heap side j1]
  · obtain ⟨e1, e2, e3⟩ := htl side c hc
    obtain ⟨d0, e4, e5⟩ := hwr _ _ _ (by simp) hd'
    obtain ⟨s, slots, i1, i2, i3⟩ := h.variate side v c0 d0 e2 e4
    obtain ⟨s', slots', j1, j2⟩ := i1.push cfg.heap hcache (a.x, a.vec v)
    refine ⟨s', slots', by simpa [Spec.withVariate] using j2, ?_, ?_⟩
    · rw [e3, e2, i2]
      show Cell.tail (TailOwn.next cfg.heap side (.val s.own) a.x) = _
      rw [tailPush_next cfg.heap side j1]
    · rw [e5, e1, i3]
      have ht0 : tailOf env = .val s.own := by unfold tailOf; rw [e2, i2]
      have := tailPush_slot cfg.heap side (g := id) j1
      simp only [write, if_true, ht0]
      simpa using this
  · obtain ⟨e1, e2, e3⟩ := htl side c hc
    obtain ⟨d0, e4, e5⟩ := hwr _ _ _ (by simp) hd'
    obtain ⟨s, slots, i1, i2, i3⟩ := h.weights side c0 d0 e2 e4
    obtain ⟨s', slots', j1, j2⟩ := i1.push cfg.heap hcache (a.x, a.w)
    refine ⟨s', slots', by simpa [Spec.weightedSamples] using j2, ?_, ?_⟩
    · rw [e3, e2, i2]
      show Cell.tail (TailOwn.next cfg.heap side (.val s.own) a.x) = _
      rw [tailPush_next cfg.heap side j1]
    · rw [e5, e1, i3]
      have ht0 : tailOf env = .val s.own := by unfold tailOf; rw [e2, i2]
      have := tailPush_slot cfg.heap side (g := id) j1
      simp only [write, if_true, ht0]
      simpa using this

/-- All accumulators of the set are there. -/
def Total (S : List (Tag StdF)) (env : Env StdF (Cell K)) : Prop :=
  ∀ t ∈ S, ∃ c, env (stdLib.tkey t) = some (t.base, c)

theorem total_visit {cfg : Cfg K} {S : List (Tag StdF)} {refs : StdF → ℕ} {a : FArgs K} {env : Env StdF (Cell K)}
    (hnd : (S.map stdLib.tkey).Nodup) (h : Total S env) {t : Tag StdF} (ht : t ∈ S) :
    Total S (stdLib.visitX (fullImpl cfg) S refs a env t) := by
  intro t' ht'
  obtain ⟨c, hc⟩ := h t' ht'
  by_cases hk : stdLib.tkey t = stdLib.tkey t'
  · have e : t = t' := List.inj_on_of_nodup_map hnd ht ht' hk
    subst e
    unfold Lib.visitX
    split
    · exact ⟨c, hc⟩
    · exact ⟨_, by dsimp only; rw [if_pos rfl]⟩
  · rw [Lib.visitX_other (fullImpl cfg) hnd refs a env ht' hk, hc]
    split
    · exact ⟨c, rfl⟩
    · exact ⟨_, rfl⟩

/-- A push. -/
theorem TailsOk.push {cfg : Cfg K} (hcache : 1 ≤ cfg.tailCache) {S : List (Tag StdF)} (hnd : (S.map stdLib.tkey).Nodup)
    (hdrop : ∀ t ∈ S, t.drop = false) {refs : StdF → ℕ} {a : FArgs K} {as : List (FArgs K)}
    (S' : List (Tag StdF)) (hS : ∀ t ∈ S', t ∈ S) (hnd' : (S'.map stdLib.tkey).Nodup) {env : Env StdF (Cell K)}
    (hd : Dom S env) (hdom : Total S env) (h : TailsOk cfg as env) :
    TailsOk cfg (if abstractTail ∈ S'.map stdLib.tkey then as ++ [a] else as)
      (stdLib.pushX (fullImpl cfg) S refs S' env a) ∧ Total S (stdLib.pushX (fullImpl cfg) S refs S' env a) := by
  induction S' generalizing env as with
  | nil => exact ⟨by rw [if_neg (by simp)]; exact h, hdom⟩
  | cons t S' ih =>
    have ht := hS t (by simp)
    rw [List.map_cons, List.nodup_cons] at hnd'
    rw [Lib.pushX, List.foldl_cons, ← Lib.pushX]
    by_cases hk : stdLib.tkey t = abstractTail
    · have := ih (fun t ht => hS t (by simp [ht])) hnd'.2 (dom_visit hd ht) (total_visit hnd hdom ht)
        (h.visit hcache hnd hdrop (refs := refs) (a := a) hd hdom ht hk)
      rw [if_neg (by rw [← hk]; exact hnd'.1)] at this
      rwa [if_pos (by simp [hk])]
    · have := ih (fun t ht => hS t (by simp [ht])) hnd'.2 (dom_visit hd ht) (total_visit hnd hdom ht)
        (h.other (refs := refs) (a := a) hdom ht hk)
      have e : (abstractTail ∈ (t :: S').map stdLib.tkey) ↔ abstractTail ∈ S'.map stdLib.tkey := by
        rw [List.map_cons, List.mem_cons]
        exact ⟨fun h => h.resolve_left (fun h => hk h.symm), Or.inr⟩
      simp only [e]
      exact this

/-- A push into the whole set. -/
theorem TailsOk.pushAll {cfg : Cfg K} (hcache : 1 ≤ cfg.tailCache) {S : List (Tag StdF)}
    (hnd : (S.map stdLib.tkey).Nodup) (hdrop : ∀ t ∈ S, t.drop = false) {refs : StdF → ℕ} {a : FArgs K}
    {as : List (FArgs K)} {env : Env StdF (Cell K)} (hd : Dom S env) (hdom : Total S env) (h : TailsOk cfg as env) :
    TailsOk cfg (as ++ [a]) (stdLib.pushX (fullImpl cfg) S refs S env a) ∧
      Total S (stdLib.pushX (fullImpl cfg) S refs S env a) := by
  obtain ⟨h1, h2⟩ := h.push hcache hnd hdrop (refs := refs) (a := a) S (fun t ht => ht) hnd hd hdom
  refine ⟨?_, h2⟩
  by_cases hk : abstractTail ∈ S.map stdLib.tkey
  · rwa [if_pos hk] at h1
  · have hnone : ∀ f c, stdLib.pushX (fullImpl cfg) S refs S env a abstractTail ≠ some (f, c) := by
      intro f c hc
      obtain ⟨t, ht, e, -⟩ := dom_push S (fun t ht => ht) hd _ _ _ hc
      exact hk (List.mem_map.2 ⟨t, ht, e⟩)
    exact ⟨fun side c hc => absurd hc (hnone _ _), fun side v c d hc => absurd hc (hnone _ _),
      fun side c d hc => absurd hc (hnone _ _)⟩

end
end Cell
end Acc
