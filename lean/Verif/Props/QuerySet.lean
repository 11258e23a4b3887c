import Verif.Proofs.QueryRun
import Verif.Props.SafeSet

/-!
# C71: looking at a set does not change what it says

Extraction is `const`, but sorts, rebuilds and remembers behind the scenes, in the accumulator asked and in those it asks in
turn.  Here pushes and extractions alternate in any order on any set without droppable features, and the result of an
extraction is compared with a set that has seen the same pushes and no extraction.
-/

set_option linter.unusedSectionVars false

namespace Acc

open StdF

section
variable {K : Type} [Field K] [LinearOrder K] [IsStrictOrderedRing K] [FloorRing K]

namespace Cell

/-- A set without accumulators that have seen anything. -/
theorem plain_construct (cfg : Cfg K) {S : List (Tag StdF)} (hnd : (S.map stdLib.tkey).Nodup) (req : List (Tag StdF)) :
    Plain cfg S [] (stdLib.construct (fullImpl cfg).toImpl S req).env := by
  have hdom := construct_dom (fullImpl cfg).toImpl S req
  have hat : ∀ t ∈ S, (stdLib.construct (fullImpl cfg).toImpl S req).env (stdLib.tkey t) = some (t.base, start cfg t.base) :=
    fun t ht => Lib.construct_at (fullImpl cfg).toImpl hnd req ht
  have hst : ∀ k f c, (stdLib.construct (fullImpl cfg).toImpl S req).env k = some (f, c) → c = start cfg f := by
    intro k f c hc
    obtain ⟨t, ht, hk, hb⟩ := hdom k f c hc
    rw [← hk, hat t ht] at hc
    injection hc with hc
    injection hc with e1 e2
    rw [← e2, e1]
  refine ⟨hdom, fun t ht => ⟨_, hat t ht⟩, ⟨?_, ?_, ?_⟩, ?_⟩
  · intro side c hc
    exact ⟨_, _, tailInit_inv side cfg.tailCache 0 (), hst _ _ _ hc⟩
  · intro side v c d hc hd
    exact ⟨_, _, tailInit_inv side cfg.tailCache 0 [], hst _ _ _ hc, hst _ _ _ hd⟩
  · intro side c d hc hd
    exact ⟨_, _, tailInit_inv side cfg.tailCache 0 0, hst _ _ _ hc, hst _ _ _ hd⟩
  · intro k f c hc
    rw [hst _ _ _ hc]
    exact start_memo cfg f

theorem queryRun_append (cfg : Cfg K) (S : List (Tag StdF)) (refs : StdF → ℕ) (ops ops' : List (QueryOp K)) :
    ∀ env, queryRun cfg S refs env (ops ++ ops') = (queryRun cfg S refs env ops).bind fun env => queryRun cfg S refs env ops' := by
  induction ops with
  | nil => intro env; rfl
  | cons op ops ih =>
    intro env
    rw [List.cons_append, queryRun, List.foldlM_cons, queryRun, List.foldlM_cons]
    cases h : queryStep cfg S refs env op with
    | val e => exact ih e
    | _ => rfl

end Cell

variable {cfg : Cfg K} (hk : 1 ≤ cfg.tailCache) (w : Bool) {ord : List (Tag StdF) → List (Tag StdF)}
  (hord : ∀ l, (ord l).Perm l) (req : List (Tag StdF)) (hp : ∀ t ∈ req, t.drop = false)
include hk hord hp

/-- C71: construct a set of any features, none of them droppable; push and extract in any order.  Then extracting a feature
gives what it gives after the same pushes without any extraction, if the feature uses nothing that remembers earlier
extractions and, where covariates or weights are kept with the tail, the samples are distinct. -/
theorem C71_transparent {ops : List (QueryOp K)} {env : Env StdF (Cell K)}
    (h : queried cfg w ord req ops = .val env) {t : Tag StdF}
    (ht : Spec.Independent (stdLib.accumulators w ord req) (QueryOp.pushes ops) t) (p : K) :
    (Cell.extract cfg p (stdLib.tkey t) env).2 = fullRun cfg w ord req (QueryOp.pushes ops) p (stdLib.tkey t) := by
  have hnd := C42_unique stdLib_ok w hord req
  have h0 := Cell.plain_construct cfg hnd req
  obtain ⟨h1, h2⟩ := Cell.agree_run hk hnd (plain_accumulators w hord req hp) ops (Cell.Agree.refl h0) h0 h
  rw [List.nil_append] at h1 h2
  unfold fullRun fullState
  rw [runX_pushes]
  exact (Cell.extractN_agree h2 p _ _ _ (by omega) h1).2.2 (Cell.steady_of hnd h2.dom h2.total _ t ht)

/-- C71: two histories with the same pushes cannot be told apart. -/
theorem C71_same_pushes {ops ops' : List (QueryOp K)} {env env' : Env StdF (Cell K)}
    (h : queried cfg w ord req ops = .val env) (h' : queried cfg w ord req ops' = .val env')
    (he : QueryOp.pushes ops = QueryOp.pushes ops') {t : Tag StdF}
    (ht : Spec.Independent (stdLib.accumulators w ord req) (QueryOp.pushes ops) t) (p : K) :
    (Cell.extract cfg p (stdLib.tkey t) env).2 = (Cell.extract cfg p (stdLib.tkey t) env').2 := by
  rw [C71_transparent hk w hord req hp h ht, C71_transparent hk w hord req hp h' (he ▸ ht), he]

/-- C71: extract, extract anything else in between, extract again: the same result. -/
theorem C71_repeat {ops : List (QueryOp K)} {env env' : Env StdF (Cell K)} {ks : List (StdF × K)}
    (h : queried cfg w ord req ops = .val env)
    (h' : queried cfg w ord req (ops ++ ks.map fun x => .extract x.1 x.2) = .val env') {t : Tag StdF}
    (ht : Spec.Independent (stdLib.accumulators w ord req) (QueryOp.pushes ops) t) (p : K) :
    (Cell.extract cfg p (stdLib.tkey t) env').2 = (Cell.extract cfg p (stdLib.tkey t) env).2 := by
  have e : QueryOp.pushes (ops ++ ks.map fun x => .extract x.1 x.2) = QueryOp.pushes ops := by
    simp [QueryOp.pushes, List.filterMap_append, List.filterMap_map, Function.comp_def]
  exact C71_same_pushes hk w hord req hp h' h e (e ▸ ht) p

/-- C71: a history is defined if each extraction in it is one that would be defined without the earlier ones. -/
theorem C71_defined (ops : List (QueryOp K))
    (hops : ∀ pre k p post, ops = pre ++ .extract k p :: post → ∃ t, stdLib.tkey t = k ∧
      Spec.Independent (stdLib.accumulators w ord req) (QueryOp.pushes pre) t ∧
      (fullRun cfg w ord req (QueryOp.pushes pre) p k).broken = false) :
    ∃ env, queried cfg w ord req ops = .val env := by
  induction ops using List.reverseRecOn with
  | nil => exact ⟨_, rfl⟩
  | append_singleton ops op ih =>
    obtain ⟨env, he⟩ := ih fun pre k p post e => hops pre k p (post ++ [op]) (by rw [e]; simp)
    have hstep : queried cfg w ord req (ops ++ [op]) = Cell.queryStep cfg (stdLib.accumulators w ord req)
        (stdLib.construct (fullImpl cfg).toImpl (stdLib.accumulators w ord req) req).refs env op := by
      unfold queried at he ⊢
      dsimp only at he ⊢
      rw [Cell.queryRun_append, he]
      show Cell.queryRun _ _ _ _ _ = _
      rw [Cell.queryRun, List.foldlM_cons]
      cases Cell.queryStep cfg (stdLib.accumulators w ord req)
        (stdLib.construct (fullImpl cfg).toImpl (stdLib.accumulators w ord req) req).refs env op <;> rfl
    rw [hstep]
    cases op with
    | push a => exact ⟨_, rfl⟩
    | extract k p =>
      obtain ⟨t, rfl, ht, hb⟩ := hops ops k p [] rfl
      have := C71_transparent hk w hord req hp he ht p
      refine ⟨(Cell.extract cfg p (stdLib.tkey t) env).1, ?_⟩
      unfold Cell.queryStep
      dsimp only
      rw [this, hb]
      rfl

omit hk in
/-- C71: in the sets of C69, the result is what the estimator returns in a set of its own after the pushes alone. -/
theorem C71_alone (hirr : IrrOk cfg.irr) (hk : 1 ≤ cfg.tailCache) {q : QFamily} {sd : Side} {v0 v1 : ℕ}
    (hf : ∀ t ∈ stdLib.asList w req, fine w q sd v0 v1 t.base = true)
    (hnq : ∀ t ∈ stdLib.accumulators w ord req, t.base ≠ quantile) {ops : List (QueryOp K)} {env : Env StdF (Cell K)}
    (h : queried cfg w ord req ops = .val env) (hne : QueryOp.pushes ops ≠ [])
    (hpos : w = true → ∀ a ∈ QueryOp.pushes ops, 0 < a.w) {r : Tag StdF}
    (hr : Spec.FirstOfKind stdLib (stdLib.asList w req) r) (he : elementary r.base = false)
    (ht : Spec.Independent (stdLib.accumulators w ord req) (QueryOp.pushes ops) r) (p : K) :
    (Cell.extract cfg p (stdLib.tkey r) env).2 = Spec.alone cfg (QueryOp.pushes ops) p r.base := by
  rw [C71_transparent hk w hord req hp h ht,
    C69_estimators_plain hirr hk w hord req hf hnq hne hpos hp hr he]

omit hk in
/-- C71: a program that first pushes a sample, and then pushes and extracts in any order, with sensible arguments and a
sensible stream, never runs into undefined behaviour or an endless loop, if it extracts requested features that depend
neither on earlier extractions nor on ties and are not delicate (C70). -/
theorem C71_sensible (hirr : IrrOk cfg.irr) (hcfg : Spec.SensibleCfg cfg) {q : QFamily} {sd : Side} {v0 v1 : ℕ}
    (hf : ∀ t ∈ stdLib.asList w req, fine w q sd v0 v1 t.base = true)
    (hnq : ∀ t ∈ stdLib.accumulators w ord req, t.base ≠ quantile) (a : FArgs K) (ops : List (QueryOp K))
    (hs : Spec.SensibleStream cfg w (a :: QueryOp.pushes ops))
    (hops : ∀ k p, .extract k p ∈ ops → 0 < p ∧ p < 1 ∧ ∃ r ∈ stdLib.asList w req, stdLib.tkey r = k ∧
      ∀ t ∈ stdLib.accumulators w ord req, stdLib.tkey t = k →
        Spec.Independent (stdLib.accumulators w ord req) (a :: QueryOp.pushes ops) t ∧
        ¬ Spec.Delicate cfg (a :: QueryOp.pushes ops) t.base) :
    ∃ env, queried cfg w ord req (.push a :: ops) = .val env := by
  refine C71_defined hcfg.tailCache w hord req hp _ ?_
  intro pre k p post e
  cases pre with
  | nil => cases e
  | cons op pre =>
    rw [List.cons_append] at e
    injection e with e1 e2
    subst e1
    obtain ⟨h0, h1, r, hr, rfl, hall⟩ := hops k p (by rw [e2]; simp)
    obtain ⟨t, ⟨ht, htk⟩, -⟩ := (C42_closure stdLib_ok w hord req).1 r hr
    obtain ⟨hind, -⟩ := hall t ht htk
    have hpre : QueryOp.pushes (.push a :: pre) = a :: QueryOp.pushes pre := rfl
    have hsub : List.Sublist (a :: QueryOp.pushes pre) (a :: QueryOp.pushes ops) := by
      rw [e2]
      unfold QueryOp.pushes
      rw [List.filterMap_append]
      exact (List.sublist_append_left _ _).cons_cons a
    have hmem : ∀ x ∈ a :: QueryOp.pushes pre, x ∈ a :: QueryOp.pushes ops := fun x hx => hsub.subset hx
    rw [hpre]
    refine ⟨t, htk, ⟨ht, hind.sticky, hind.tail, fun x hx side hside => ?_⟩, ?_⟩
    · exact (hind.ties x hx side hside).sublist (hsub.map _)
    · have hsafe := C70_requested (p := p) hirr hcfg w hord req hf hnq (as := a :: QueryOp.pushes pre)
        ⟨by simp, fun x hx => hs.limits x (hmem x hx), fun hw x hx => hs.weights hw x (hmem x hx),
          fun v x hx y hy => hs.dims v x (hmem x hx) y (hmem y hy)⟩ h0 h1 hp hr fun t ht htk hdel => ?_
      · generalize fullRun cfg w ord req (a :: QueryOp.pushes pre) p (stdLib.tkey r) = o at hsafe
        cases o with
        | num x => cases x <;> first | rfl | exact hsafe.elim
        | list x => cases x <;> first | rfl | exact hsafe.elim
        | vecs x => cases x <;> first | rfl | exact hsafe.elim
        | hist x => cases x <;> first | rfl | exact hsafe.1.elim
        | fit x => cases x <;> first | rfl | exact hsafe.1.elim
        | missing => rfl
      · refine (hall t ht htk).2 ?_
        have hlen := hsub.length_le
        revert hdel
        cases t.base <;> first | exact id | exact fun h => ⟨h.1, lt_of_lt_of_le h.2 hlen⟩

end

/-! ## Examples -/

/-- A part of the set that is closed under what its accumulators use. -/
theorem independent_of {K : Type} {S S' : List (Tag StdF)} {as : List (FArgs K)} (h1 : ∀ t ∈ S', t ∈ S)
    (h2 : ∀ u ∈ S', ∀ d ∈ stdLib.deps u.base, ∀ e ∈ S, stdLib.tkey d = stdLib.tkey e → e ∈ S')
    (h3 : ∀ t ∈ S', Spec.sticky t.base = false)
    (h4 : ∀ t ∈ S', ∀ side, Spec.alongTail t.base = some side → (⟨.tail side, false⟩ : Tag StdF) ∈ S)
    (h5 : (as.map fun a => a.x).Nodup) {t : Tag StdF} (ht : t ∈ S') : Spec.Independent S as t := by
  have hall : ∀ u e, Spec.Uses stdLib S u e → u ∈ S' → e ∈ S' := by
    intro u e h
    induction h with
    | direct a b c => exact fun hu => h2 _ hu _ b _ a c
    | step a b c _ ih => exact fun hu => ih (h2 _ hu _ b _ a c)
  have hb : ∀ e, e = t ∨ Spec.Uses stdLib S t e → e ∈ S' := by
    rintro e (rfl | h)
    · exact ht
    · exact hall _ _ h ht
  exact ⟨h1 t ht, fun e he => h3 e (hb e he), fun e he side hs => ⟨_, h4 e (hb e he) side hs, rfl⟩,
    fun _ _ _ _ => h5⟩

/-- A program that looks at the set after every sample. -/
noncomputable def lookingOps : List (QueryOp ℝ) :=
  [.extract quantile (1 / 2), .extract pSquareCumul (1 / 2), .push ⟨⟨4, 2, fun _ => 4⟩, fun _ => [6]⟩,
    .extract pSquareCumul (1 / 3), .extract quantile (1 / 4), .extract extendedPSquare (1 / 2),
    .push ⟨⟨3, 1, fun _ => 4⟩, fun _ => [7]⟩, .extract quantile (1 / 2)]

theorem looking_pushes : (⟨⟨1, 1, fun _ => 2⟩, fun _ => [5]⟩ : FArgs ℝ) :: QueryOp.pushes lookingOps = realStream := rfl

theorem looking_independent {t : Tag StdF} (ht : t ∈ stdLib.accumulators true List.reverse manyReq)
    (hs : Spec.sticky t.base = false) :
    Spec.Independent (stdLib.accumulators true List.reverse manyReq) realStream t := by
  refine independent_of (S' := (stdLib.accumulators true List.reverse manyReq).filter fun t => !Spec.sticky t.base)
    (fun t ht => (List.mem_filter.1 ht).1) (by decide +kernel) (by decide +kernel) ?_ (by simp [realStream])
    (List.mem_filter.2 ⟨ht, by simp [hs]⟩)
  intro t ht side hside
  have h : ∀ t ∈ stdLib.accumulators true List.reverse manyReq, Spec.alongTail t.base = none ∨
      Spec.alongTail t.base = some .right := by decide +kernel
  rcases h t (List.mem_filter.1 ht).1 with e | e
  · rw [e] at hside; cases hside
  · rw [e] at hside
    injection hside with hside
    subst hside
    decide +kernel

/-- C71: estimators of all kinds in one set with weights.  The program is defined, and what it extracts in the end, with any
argument, is what it would extract had it not looked. -/
example : ∃ env, queried realCfg true List.reverse manyReq (.push ⟨⟨1, 1, fun _ => 2⟩, fun _ => [5]⟩ :: lookingOps) = .val env ∧
    ∀ t ∈ stdLib.accumulators true List.reverse manyReq, Spec.sticky t.base = false → ∀ p,
      (Cell.extract realCfg p (stdLib.tkey t) env).2 =
        fullRun realCfg true List.reverse manyReq realStream p (stdLib.tkey t) := by
  have hp : ∀ t ∈ manyReq, t.drop = false := by decide +kernel
  have hord : ∀ l : List (Tag StdF), l.reverse.Perm l := fun l => List.reverse_perm l
  obtain ⟨env, he⟩ := C71_sensible true hord manyReq hp (irrational_ok 64) realCfg_sensible (q := .tail) (sd := .right)
    (v0 := 3) (v1 := 1) (by decide +kernel) (by decide +kernel) ⟨⟨1, 1, fun _ => 2⟩, fun _ => [5]⟩ lookingOps
    (by rw [looking_pushes]; exact realStream_sensible true) (by
      rw [looking_pushes]
      intro k p hkp
      have hk : (k = quantile ∨ k = pSquareCumul ∨ k = extendedPSquare) ∧ 0 < p ∧ p < 1 := by
        simp only [lookingOps, List.mem_cons, List.not_mem_nil, or_false, QueryOp.extract.injEq, reduceCtorEq, false_or] at hkp
        rcases hkp with ⟨rfl, rfl⟩ | ⟨rfl, rfl⟩ | ⟨rfl, rfl⟩ | ⟨rfl, rfl⟩ | ⟨rfl, rfl⟩ | ⟨rfl, rfl⟩ <;>
          refine ⟨by simp, ?_, ?_⟩ <;> norm_num
      refine ⟨hk.2.1, hk.2.2, ?_⟩
      have h1 : ∀ k ∈ [quantile, pSquareCumul, extendedPSquare], ∃ r ∈ stdLib.asList true manyReq, stdLib.tkey r = k := by
        decide +kernel
      have h2 : ∀ k ∈ [quantile, pSquareCumul, extendedPSquare], ∀ t ∈ stdLib.accumulators true List.reverse manyReq,
          stdLib.tkey t = k → Spec.sticky t.base = false ∧ delicateName t.base = false := by decide +kernel
      have hm : k ∈ [quantile, pSquareCumul, extendedPSquare] := by simpa using hk.1
      obtain ⟨r, hr, hrk⟩ := h1 k hm
      exact ⟨r, hr, hrk, fun t ht htk => ⟨looking_independent ht (h2 k hm t ht htk).1, not_delicate (h2 k hm t ht htk).2⟩⟩)
  refine ⟨env, he, fun t ht hs p => ?_⟩
  exact C71_transparent realCfg_sensible.tailCache true hord manyReq hp he (looking_independent ht hs) p

/-! ## The exceptions are real -/

/-- A sample with a covariate. -/
def lookPush (x y : ℚ) : QueryOp ℚ := .push ⟨⟨x, 1, fun _ => 0⟩, fun _ => [y]⟩

/-- C71: the fit of the peaks over a threshold depends on whether it was asked for before: `beta_hat` after 3, 5 and 7. -/
theorem C71_pot_differs : ∃ (cfg : Cfg ℚ) (ops : List (QueryOp ℚ)) (env : Env StdF (Cell ℚ)),
    queried cfg false id [tg (peaksOverThreshold .right)] ops = .val env ∧
    (Cell.extract cfg 0 abstractPeaksOverThreshold env).2 ≠
      fullRun cfg false id [tg (peaksOverThreshold .right)] (QueryOp.pushes ops) 0 abstractPeaksOverThreshold := by
  have h1 : ((queried { smallCfg with pw := fun _ _ => .val 1 } false id [tg (peaksOverThreshold .right)]
      [lookPush 3 0, lookPush 5 0, .extract abstractPeaksOverThreshold 0, lookPush 7 0]).bind fun env =>
      (Cell.extract { smallCfg with pw := fun _ _ => .val 1 } 0 abstractPeaksOverThreshold env).2.asFit.bind
        fun r => r.2.1) = .val (45 / 29) := by decide +kernel
  have h2 : ((fullRun { smallCfg with pw := fun _ _ => .val 1 } false id [tg (peaksOverThreshold .right)]
      (QueryOp.pushes [lookPush 3 0, lookPush 5 0, .extract abstractPeaksOverThreshold 0, lookPush 7 0]) 0
      abstractPeaksOverThreshold).asFit.bind fun r => r.2.1) = .val (105 / 16) := by decide +kernel
  obtain ⟨env, he, h1⟩ := Cell.bind_val_of h1
  refine ⟨_, _, env, he, fun e => ?_⟩
  rw [e, h2] at h1
  injection h1 with h1
  norm_num at h1

/-- C71: so does the median read from the histogram: 5 / 2, or 1 / 2 if it was asked for after three of five samples. -/
theorem C71_density_median_differs : ∃ (cfg : Cfg ℚ) (ops : List (QueryOp ℚ)) (env : Env StdF (Cell ℚ)),
    queried cfg false id [tg withDensityMedian] ops = .val env ∧
    (Cell.extract cfg 0 median env).2 ≠ fullRun cfg false id [tg withDensityMedian] (QueryOp.pushes ops) 0 median := by
  have h1 : ((queried { smallCfg with densCache := 2, numBins := 2 } false id [tg withDensityMedian]
      [lookPush 0 0, lookPush 4 0, lookPush 1 0, .extract median 0, lookPush 3 0, lookPush 3 0]).bind fun env =>
      (Cell.extract { smallCfg with densCache := 2, numBins := 2 } 0 median env).2.asNum) = .val (1 / 2) := by
    decide +kernel
  have h2 : (fullRun { smallCfg with densCache := 2, numBins := 2 } false id [tg withDensityMedian]
      (QueryOp.pushes [lookPush 0 0, lookPush 4 0, lookPush 1 0, .extract median 0, lookPush 3 0, lookPush 3 0]) 0
      median).asNum = .val (5 / 2) := by decide +kernel
  obtain ⟨env, he, h1⟩ := Cell.bind_val_of h1
  refine ⟨_, _, env, he, fun e => ?_⟩
  rw [e, h2] at h1
  injection h1 with h1
  norm_num at h1

/-- C71: with ties, which covariate is kept depends on whether the tail was looked at. -/
theorem C71_ties_differ : ∃ (cfg : Cfg ℚ) (ops : List (QueryOp ℚ)) (env : Env StdF (Cell ℚ)),
    queried cfg false id [tg (tailVariate 0 .right)] ops = .val env ∧
    (Cell.extract cfg 0 abstractTailVariate env).2 ≠
      fullRun cfg false id [tg (tailVariate 0 .right)] (QueryOp.pushes ops) 0 abstractTailVariate := by
  have h1 : ((queried { smallCfg with tailCache := 2, heap := HeapImpl.simple' } false id [tg (tailVariate 0 .right)]
      [lookPush 1 10, lookPush 1 20, .extract abstractTail 0, lookPush 2 30]).bind fun env =>
      (Cell.extract { smallCfg with tailCache := 2, heap := HeapImpl.simple' } 0 abstractTailVariate env).2.asVecs) =
      .val [[30], [10]] := by decide +kernel
  have h2 : (fullRun { smallCfg with tailCache := 2, heap := HeapImpl.simple' } false id [tg (tailVariate 0 .right)]
      (QueryOp.pushes [lookPush 1 10, lookPush 1 20, .extract abstractTail 0, lookPush 2 30]) 0
      abstractTailVariate).asVecs = .val [[30], [20]] := by decide +kernel
  obtain ⟨env, he, h1⟩ := Cell.bind_val_of h1
  refine ⟨_, _, env, he, fun e => ?_⟩
  rw [e, h2] at h1
  exact absurd h1 (by decide)

end Acc
