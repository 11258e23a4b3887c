import Verif.Proofs.FullRead
import Verif.Props.StatSet
import Verif.Props.Tail
import Verif.Props.TailEst

/-!
# C68, C69: all statistics in one set

The theorems about single estimators say what they return in a set that contains them and what they need.  Here the sets
are those the framework puts together for any request: elementary statistics, rolling statistics, histograms, quantile
estimators, tails, covariates in the tail, and the theory of extreme values side by side, sharing what they have in
common, and the tail writing into the accumulators of its variates while the set is updated.
-/

set_option linter.unusedSectionVars false

namespace Acc

open StdF

section
variable {K : Type} [Field K] [LinearOrder K] [IsStrictOrderedRing K] [FloorRing K]
variable {cfg : Cfg K} (hirr : IrrOk cfg.irr) (hk : 1 ≤ cfg.tailCache) (w : Bool) {q : QFamily} {sd : Side} {v0 v1 : ℕ}

/-- What holds of the requested features and is passed on to dependencies holds of all accumulators. -/
theorem accumulators_all {P : Tag StdF → Prop} {ord : List (Tag StdF) → List (Tag StdF)} (hord : ∀ l, (ord l).Perm l)
    (req : List (Tag StdF)) (h : ∀ t ∈ stdLib.asList w req, P t)
    (hstep : ∀ t d : Tag StdF, d ∈ stdLib.asList w (stdLib.tdeps t) → P t → P d) :
    ∀ t ∈ stdLib.accumulators w ord req, P t := by
  have hneeds : ∀ t d : Tag StdF, Spec.Needs stdLib w t d → P t → P d := by
    intro t d hd
    induction hd with
    | direct h1 => exact hstep _ _ h1
    | step h1 _ ih => exact fun ht => ih (hstep _ _ h1 ht)
  intro t ht
  obtain ⟨r, ⟨a, b, e, -⟩, hr⟩ := C42_nothing_else stdLib_ok w hord req ht
  have hrn := h r (by rw [e]; simp)
  rcases hr with rfl | hr
  · exact hrn
  · exact hneeds r t hr hrn

theorem fine_accumulators {ord : List (Tag StdF) → List (Tag StdF)} (hord : ∀ l, (ord l).Perm l)
    (req : List (Tag StdF)) (h : ∀ t ∈ stdLib.asList w req, fine w q sd v0 v1 t.base = true) :
    ∀ t ∈ stdLib.accumulators w ord req, fine w q sd v0 v1 t.base = true := by
  refine accumulators_all w hord req h fun t d hd ht => ?_
  have hd0 : ∃ d0 ∈ depBases t.base, d.base = if w then weighted d0 else d0 := by
    have hb : ∀ d ∈ stdLib.tdeps t, d.base ∈ depBases t.base := by
      intro d hd
      unfold Lib.tdeps at hd
      split at hd
      · obtain ⟨d1, h1, rfl⟩ := List.mem_map.1 hd
        obtain ⟨d2, h2, rfl⟩ := List.mem_map.1 h1
        exact h2
      · obtain ⟨d2, h2, rfl⟩ := List.mem_map.1 hd
        exact h2
    unfold Lib.asList at hd
    cases w with
    | false => exact ⟨d.base, hb d hd, rfl⟩
    | true =>
      obtain ⟨d1, h1, rfl⟩ := List.mem_map.1 hd
      exact ⟨d1.base, hb d1 h1, rfl⟩
  obtain ⟨d0, h0, e⟩ := hd0
  rw [e]
  exact fine_deps ht d0 h0

/-- If nothing droppable is requested, nothing is. -/
theorem plain_accumulators {ord : List (Tag StdF) → List (Tag StdF)} (hord : ∀ l, (ord l).Perm l)
    (req : List (Tag StdF)) (h : ∀ t ∈ req, t.drop = false) :
    ∀ t ∈ stdLib.accumulators w ord req, t.drop = false := by
  refine accumulators_all w hord req (P := fun t => t.drop = false) (fun t ht => ?_) fun t d hd ht => ?_
  · unfold Lib.asList at ht
    cases w with
    | false => exact h t ht
    | true =>
      obtain ⟨t', h1, rfl⟩ := List.mem_map.1 ht
      exact h t' h1
  · have hb : ∀ d ∈ stdLib.tdeps t, d.drop = false := by
      intro d hd
      unfold Lib.tdeps at hd
      rw [ht] at hd
      obtain ⟨d2, h2, rfl⟩ := List.mem_map.1 hd
      rfl
    unfold Lib.asList at hd
    cases w with
    | false => exact hb d hd
    | true =>
      obtain ⟨d1, h1, rfl⟩ := List.mem_map.1 hd
      exact hb d1 h1

/-- A set of features fed with a stream. -/
def fullState (cfg : Cfg K) (w : Bool) (ord : List (Tag StdF) → List (Tag StdF)) (req : List (Tag StdF))
    (as : List (FArgs K)) : Res (SetState StdF (Cell K)) :=
  stdLib.runX (fullImpl cfg) (stdLib.accumulators w ord req)
    (stdLib.construct (fullImpl cfg).toImpl (stdLib.accumulators w ord req) req) (as.map .push)

/-- A set of features fed with a stream, and a feature extracted from it, with `quantile_probability = p`. -/
def fullRun (cfg : Cfg K) (w : Bool) (ord : List (Tag StdF) → List (Tag StdF)) (req : List (Tag StdF))
    (as : List (FArgs K)) (p : K) (k : StdF) : Out K :=
  match fullState cfg w ord req as with
  | .val s => Cell.read cfg s.env p k
  | _ => .missing

/-- Is the accumulator of an abstract feature droppable? -/
def dropped (S : List (Tag StdF)) (k : StdF) : Bool := S.any fun t => decide (stdLib.tkey t = k) && t.drop

theorem dropped_eq {S : List (Tag StdF)} (hnd : (S.map stdLib.tkey).Nodup) {t : Tag StdF} (ht : t ∈ S) :
    dropped S (stdLib.tkey t) = t.drop := by
  cases h : t.drop with
  | true => exact List.any_eq_true.2 ⟨t, ht, by simp [h]⟩
  | false =>
    rw [dropped, Bool.eq_false_iff]
    intro hc
    obtain ⟨e, he, h1⟩ := List.any_eq_true.1 hc
    simp only [Bool.and_eq_true, decide_eq_true_eq] at h1
    rw [List.inj_on_of_nodup_map hnd he ht h1.1, h] at h1
    exact absurd h1.2 (by simp)

section run
variable {ord : List (Tag StdF) → List (Tag StdF)} (hord : ∀ l, (ord l).Perm l) (req : List (Tag StdF))
  (hf : ∀ t ∈ stdLib.asList w req, fine w q sd v0 v1 t.base = true)

include hirr hk hord hf in
theorem full_hold {u : Tag StdF} (hu : u ∈ stdLib.accumulators w ord req)
    (hreq : Spec.Mentions stdLib req (stdLib.tkey u)) (as : List (FArgs K)) :
    ∃ s, fullState cfg w ord req as = .val s ∧ ∀ t, Below stdLib (stdLib.accumulators w ord req) u t →
      Holds stdLib (GoodFull cfg w sd v1 (dropped (stdLib.accumulators w ord req) abstractTailVariate)
        (dropped (stdLib.accumulators w ord req) abstractTailWeights)) as s.env t := by
  have hfine := fine_accumulators w hord req hf
  have hcomp := accumulators_complete stdLib_ok w hord req
  have hnd := C42_unique stdLib_ok w hord req
  have hO := (C44_std w req q hord fun t ht => fine_nice (hf t ht)).2
  refine runsX_hold stdLib_ok hnd hO (full_stepOk hirr hk hfine hcomp ?_ ?_) (fun t _ => full_init cfg t.base) hu hreq as
  · intro t ht v s hb
    have := dropped_eq hnd ht
    rw [← this, Lib.tkey, hb]
    rfl
  · intro t ht s hb
    have := dropped_eq hnd ht
    rw [← this, Lib.tkey, hb]
    rfl

include hirr hk hord hf in
theorem fullRun_eq (hnq : ∀ t ∈ stdLib.accumulators w ord req, t.base ≠ quantile) {as : List (FArgs K)} (hne : as ≠ [])
    (hpos : w = true → ∀ a ∈ as, 0 < a.w) {u t : Tag StdF} (hu : u ∈ stdLib.accumulators w ord req)
    (hreq : Spec.Mentions stdLib req (stdLib.tkey u))
    (ht : t = u ∨ Spec.Uses stdLib (stdLib.accumulators w ord req) u t)
    (hd : ∀ e, e = t ∨ Spec.Uses stdLib (stdLib.accumulators w ord req) t e →
      stdLib.tkey e = abstractTailVariate ∨ stdLib.tkey e = abstractTailWeights → e.drop = false) (p : K) :
    fullRun cfg w ord req as p (stdLib.tkey t) = full cfg w v0 as p t.base := by
  have hnd := C42_unique stdLib_ok w hord req
  obtain ⟨s, h1, h2⟩ := full_hold hirr hk w hord req hf hu hreq as
  unfold fullRun
  rw [h1]
  have htS : t ∈ stdLib.accumulators w ord req := Below.mem hu ht
  refine read_full hirr hk (fine_accumulators w hord req hf) hnq (accumulators_complete stdLib_ok w hord req) hne ?_
    htS (fun e he => h2 e ?_) (fun e he hek => ?_) fun e he hek => ?_
  · intro hw a ha
    obtain ⟨a', h3, rfl⟩ := List.mem_map.1 ha
    exact hpos hw a' h3
  · rcases he with rfl | he
    · exact ht
    · exact Below.trans ht he
  · rw [← hek, dropped_eq hnd (Below.mem htS he)]
    exact hd e he (Or.inl hek)
  · rw [← hek, dropped_eq hnd (Below.mem htS he)]
    exact hd e he (Or.inr hek)

include hirr hk hord hf in
/-- C69: construct a set with any combination of features (of those that the framework updates in the right order, one
side of the tail, one kind of covariate in the tail), in any order of the request, with or without weights; push any
non-empty stream (with positive weights).  Then extracting a requested estimator gives exactly what the same estimator
returns in a set of its own, if the tail weights and tail variates it uses are not droppable. -/
theorem C69_estimators (hnq : ∀ t ∈ stdLib.accumulators w ord req, t.base ≠ quantile) {as : List (FArgs K)}
    (hne : as ≠ []) (hpos : w = true → ∀ a ∈ as, 0 < a.w) {r : Tag StdF}
    (hr : Spec.FirstOfKind stdLib (stdLib.asList w req) r) (he : elementary r.base = false)
    (hd : ∀ e, e = r ∨ Spec.Uses stdLib (stdLib.accumulators w ord req) r e →
      stdLib.tkey e = abstractTailVariate ∨ stdLib.tkey e = abstractTailWeights → e.drop = false) (p : K) :
    fullRun cfg w ord req as p (stdLib.tkey r) = Spec.alone cfg as p r.base := by
  have hm : Spec.Mentions stdLib req (stdLib.tkey r) := by
    obtain ⟨a, b, e, -⟩ := hr
    have : r ∈ stdLib.asList w req := by rw [e]; simp
    unfold Lib.asList at this
    cases w with
    | false => exact ⟨r, this, rfl⟩
    | true =>
      obtain ⟨r', h1, rfl⟩ := List.mem_map.1 this
      exact ⟨r', h1, (stdLib_ok.weighted_key _).symm⟩
  rw [fullRun_eq hirr hk w hord req hf hnq hne hpos (C43_first_wins stdLib_ok w hord req hr) hm (Or.inl rfl) hd,
    full_other he]

include hirr hk hord hf in
/-- C69: if no requested feature is droppable. -/
theorem C69_estimators_plain (hnq : ∀ t ∈ stdLib.accumulators w ord req, t.base ≠ quantile) {as : List (FArgs K)}
    (hne : as ≠ []) (hpos : w = true → ∀ a ∈ as, 0 < a.w) (hp : ∀ t ∈ req, t.drop = false) {r : Tag StdF}
    (hr : Spec.FirstOfKind stdLib (stdLib.asList w req) r) (he : elementary r.base = false) (p : K) :
    fullRun cfg w ord req as p (stdLib.tkey r) = Spec.alone cfg as p r.base := by
  refine C69_estimators hirr hk w hord req hf hnq hne hpos hr he (fun e hb _ => ?_) p
  exact plain_accumulators w hord req hp e (Below.mem (C43_first_wins stdLib_ok w hord req hr) hb)

include hirr hk hord hf in
/-- C69: the same for an estimator that is not requested but used by a requested feature. -/
theorem C69_dependencies (hnq : ∀ t ∈ stdLib.accumulators w ord req, t.base ≠ quantile) {as : List (FArgs K)}
    (hne : as ≠ []) (hpos : w = true → ∀ a ∈ as, 0 < a.w) {u t : Tag StdF} (hu : u ∈ stdLib.accumulators w ord req)
    (hreq : Spec.Mentions stdLib req (stdLib.tkey u)) (ht : Spec.Uses stdLib (stdLib.accumulators w ord req) u t)
    (he : elementary t.base = false)
    (hd : ∀ e, e = t ∨ Spec.Uses stdLib (stdLib.accumulators w ord req) t e →
      stdLib.tkey e = abstractTailVariate ∨ stdLib.tkey e = abstractTailWeights → e.drop = false) (p : K) :
    fullRun cfg w ord req as p (stdLib.tkey t) = Spec.alone cfg as p t.base := by
  rw [fullRun_eq hirr hk w hord req hf hnq hne hpos hu hreq (Or.inr ht) hd, full_other he]

include hirr hk hord hf in
/-- C69: the elementary statistics are right in the presence of all the others, too (droppable or not). -/
theorem C69_statistics (hnq : ∀ t ∈ stdLib.accumulators w ord req, t.base ≠ quantile) {as : List (FArgs K)}
    (hne : as ≠ []) (hpos : w = true → ∀ a ∈ as, 0 < a.w) (hlim : ∀ a ∈ as, cfg.lo ≤ a.x ∧ a.x ≤ cfg.hi)
    {r : Tag StdF} (hr : r ∈ req) (he : elementary r.base = true) (h1 : stdLib.tkey r ≠ skewness)
    (h2 : stdLib.tkey r ≠ errorOfMean) (p : K) :
    ∃ v, fullRun cfg w ord req as p (stdLib.tkey r) = .num v ∧
      Spec.IsStat w v0 (as.map FArgs.toArgs) (stdLib.tkey r) v := by
  have hr' : ∃ r' ∈ stdLib.asList w req, stdLib.tkey r' = stdLib.tkey r ∧ elementary r'.base = true := by
    unfold Lib.asList
    cases w with
    | false => exact ⟨r, hr, rfl, he⟩
    | true => exact ⟨_, List.mem_map.2 ⟨r, hr, rfl⟩, stdLib_ok.weighted_key _, (elementary_weighted r.base).trans he⟩
  obtain ⟨r', h3, h4, h5⟩ := hr'
  obtain ⟨e, ⟨he, hk'⟩, -⟩ := (C42_closure stdLib_ok w hord req).1 r' h3
  have hek := hk'.trans h4
  have hef := fine_accumulators w hord req hf e he
  have hee : elementary e.base = true := by
    have := fine_elem (hf r' h3)
    rw [h5] at this
    rw [fine_elem hef]
    have e1 : key e.base = key r'.base := hk'
    rw [e1]
    exact this.symm
  refine ⟨stat cfg.irr w v0 cfg.lo cfg.hi (as.map FArgs.toArgs) (stdLib.tkey r), ?_, ?_⟩
  · have := fullRun_eq hirr hk w hord req hf hnq hne hpos he ⟨r, hr, hek.symm⟩ (Or.inl rfl) (fun x hx hxk => ?_) p
    · rw [hek] at this
      rw [this, full, if_pos hee]
      rw [← hek]
      rfl
    · -- an elementary statistic uses no tail
      exfalso
      have hx' : elementary x.base = true := by
        rcases hx with rfl | hx
        · exact hee
        · exact uses_elem (fine_accumulators w hord req hf) hx he hee
      have hxS := Below.mem he hx
      have h6 := fine_elem (fine_accumulators w hord req hf x hxS)
      rw [hx'] at h6
      rcases hxk with h7 | h7 <;> (rw [Lib.tkey] at h7; have h7' : key x.base = _ := h7; rw [h7'] at h6; cases h6)
  · rw [← h4] at h1 h2 ⊢
    refine isStat_stat w (by simpa using hne) (fun hw a ha => ?_) (fun a ha => ?_) (fine_basic (hf r' h3) h5) h1 h2
    · obtain ⟨a', h6, rfl⟩ := List.mem_map.1 ha
      exact hpos hw a' h6
    · obtain ⟨a', h6, rfl⟩ := List.mem_map.1 ha
      exact hlim a' h6

include hirr hk hord hf in
/-- C69: two sets that both offer an estimator agree on it after the same stream: other features, another order of the
request, another order of the compile-time maps make no difference. -/
theorem C69_agree {q' : QFamily} {v0' : ℕ} {ord' : List (Tag StdF) → List (Tag StdF)} (hord' : ∀ l, (ord' l).Perm l)
    (req' : List (Tag StdF)) (hf' : ∀ t ∈ stdLib.asList w req', fine w q' sd v0' v1 t.base = true)
    (hnq : ∀ t ∈ stdLib.accumulators w ord req, t.base ≠ quantile)
    (hnq' : ∀ t ∈ stdLib.accumulators w ord' req', t.base ≠ quantile) {as : List (FArgs K)}
    (hne : as ≠ []) (hpos : w = true → ∀ a ∈ as, 0 < a.w) (hp : ∀ t ∈ req, t.drop = false)
    (hp' : ∀ t ∈ req', t.drop = false) {r r' : Tag StdF}
    (hr : Spec.FirstOfKind stdLib (stdLib.asList w req) r) (hr' : Spec.FirstOfKind stdLib (stdLib.asList w req') r')
    (hb : r.base = r'.base) (he : elementary r.base = false) (p : K) :
    fullRun cfg w ord req as p (stdLib.tkey r) = fullRun cfg w ord' req' as p (stdLib.tkey r') := by
  rw [C69_estimators_plain hirr hk w hord req hf hnq hne hpos hp hr he,
    C69_estimators_plain hirr hk w hord' req' hf' hnq' hne hpos hp' hr' (by rw [← hb]; exact he), hb]

/-! ## The accumulators of the tail -/

include hirr hk hord hf in
/-- C68: whatever else is in the set, the tail lists the most extreme samples of the stream, and the covariates and weights
in the tail are, position by position, those that came with these samples; if they are not droppable. -/
theorem C68_aligned_partial (hnq : ∀ t ∈ stdLib.accumulators w ord req, t.base ≠ quantile) {as : List (FArgs K)}
    (hne : as ≠ []) (hpos : w = true → ∀ a ∈ as, 0 < a.w) (p : K)
    (hr1 : tg (StdF.tail sd) ∈ stdLib.accumulators w ord req) (hr2 : tg (tailVariate v1 sd) ∈ stdLib.accumulators w ord req)
    (hr3 : tg (tailWeights sd) ∈ stdLib.accumulators w ord req)
    (hm : ∀ k ∈ [abstractTail, abstractTailVariate, abstractTailWeights], ∃ u ∈ stdLib.accumulators w ord req,
      Spec.Mentions stdLib req (stdLib.tkey u) ∧
        (stdLib.tkey u = k ∨ ∃ t, stdLib.tkey t = k ∧ Spec.Uses stdLib (stdLib.accumulators w ord req) u t)) :
    ∃ (t : List K) (v : List (List K)) (u : List K),
      fullRun cfg w ord req as p abstractTail = .list (.val t) ∧
      fullRun cfg w ord req as p abstractTailVariate = .vecs (.val v) ∧
      fullRun cfg w ord req as p abstractTailWeights = .list (.val u) ∧
      t = Spec.extremes sd cfg.tailCache (as.map fun a => a.x) ∧
      t.length = v.length ∧ v.length = u.length ∧
      (t.zip (v.zip u)).Subperm (as.map fun a => (a.x, a.vec v1, a.w)) := by
  have hnd := C42_unique stdLib_ok w hord req
  have go : ∀ f, tg f ∈ stdLib.accumulators w ord req → stdLib.tkey (tg f) ∈ [abstractTail, abstractTailVariate, abstractTailWeights] →
      elementary f = false → fullRun cfg w ord req as p (stdLib.tkey (tg f)) = Spec.alone cfg as p f := by
    intro f hS hmem he
    obtain ⟨u, hu, hreq, hx⟩ := hm _ hmem
    have ht : tg f = u ∨ Spec.Uses stdLib (stdLib.accumulators w ord req) u (tg f) := by
      rcases hx with h | ⟨t, h1, h2⟩
      · exact Or.inl (List.inj_on_of_nodup_map hnd hS hu h.symm)
      · rw [List.inj_on_of_nodup_map hnd hS (uses_mem h2) h1.symm]
        exact Or.inr h2
    rw [fullRun_eq hirr hk w hord req hf hnq hne hpos hu hreq ht (fun e hb hek => ?_) p]
    · exact full_other he
    · have hS' := Below.mem hS hb
      rcases hek with h | h
      · rw [List.inj_on_of_nodup_map hnd hS' hr2 h]; rfl
      · rw [List.inj_on_of_nodup_map hnd hS' hr3 h]; rfl
  obtain ⟨s, out, h1, h2, h3, h4, D, h5, -⟩ := extract_both cfg.heap sd hk (0 : K) (([], 0) : List K × K)
    (onlyPushes (Spec.withBoth v1 as))
  have hT : TailIs cfg sd v1 as s (out.map Prod.fst) (out.map Prod.snd) := ⟨h1, h2, h3⟩
  rw [pushes_onlyPushes] at h4 h5
  refine ⟨_, _, _, (go _ hr1 (by simp [Lib.tkey, tg, stdLib, key]) rfl).trans (alone_tail hT p),
    (go _ hr2 (by simp [Lib.tkey, tg, stdLib, key]) rfl).trans (alone_variate hT p),
    (go _ hr3 (by simp [Lib.tkey, tg, stdLib, key]) rfl).trans (alone_weights hT p), ?_, by simp, by simp, ?_⟩
  · rw [h4]
    simp [Spec.withBoth, Function.comp_def]
  · have e : (out.map Prod.fst).zip (((out.map Prod.snd).map Prod.fst).zip ((out.map Prod.snd).map Prod.snd)) = out := by
      simp only [List.map_map, List.zip_map']
      simp
    rw [e]
    exact (List.sublist_append_left out D).subperm.trans h5.subperm

/-- The search through weights that are all 0 never ends before the end. -/
theorem wtailLoop_zero (ex : Res (ℕ × K)) {thr : K} (h : 0 < thr) (n m : ℕ) :
    wtailLoop ex thr n 0 (List.replicate m 0) = ex := by
  induction m generalizing n with
  | zero => simp [wtailLoop, h]
  | succ m ih => simp [List.replicate_succ, wtailLoop, h, ih]

include hirr hk hord hf in
/-- C68 fails for droppable tail weights: `tail_impl::assign` looks for accumulators whose feature is
`tail_weights<Side>`, not `droppable<tail_weights<Side>>`, so these keep their initial weights 0 for ever, and the weighted
tail quantile is never a number. -/
theorem C68_droppable_weights (hw : w = true) {as : List (FArgs K)} (hne : as ≠ []) (hpos : ∀ a ∈ as, 0 < a.w) {p : K}
    (hp : 0 < tailLevel sd p) {r : Tag StdF} (hr : Spec.FirstOfKind stdLib (stdLib.asList w req) r)
    (hb : r.base = weightedTailQuantile sd) (hd : dr (tailWeights sd) ∈ stdLib.accumulators w ord req) :
    fullRun cfg w ord req as p quantile = .num (nanOrThrow cfg.hasNaN) := by
  subst hw
  have hnd := C42_unique stdLib_ok true hord req
  have hfine := fine_accumulators true hord req hf
  have hcomp := accumulators_complete stdLib_ok true hord req
  have hrk : stdLib.tkey r = quantile := by rw [Lib.tkey, hb]; rfl
  have hm : Spec.Mentions stdLib req (stdLib.tkey r) := by
    obtain ⟨a, b, e, -⟩ := hr
    have : r ∈ stdLib.asList true req := by rw [e]; simp
    obtain ⟨r', h1, rfl⟩ := List.mem_map.1 this
    exact ⟨r', h1, (stdLib_ok.weighted_key _).symm⟩
  have hrS := C43_first_wins stdLib_ok true hord req hr
  obtain ⟨s, h1, h2⟩ := full_hold hirr hk true hord req hf hrS hm as
  have hdw : dropped (stdLib.accumulators true ord req) abstractTailWeights = true :=
    dropped_eq hnd hd
  rw [hdw] at h2
  have hpos' : Args.Pos true (as.map FArgs.toArgs) := by
    intro _ a ha
    obtain ⟨a', h3, rfl⟩ := List.mem_map.1 ha
    exact hpos a' h3
  have huse := fun e h => h2 e (Or.inr h)
  -- the three accumulators it reads
  obtain ⟨e1, he1, hu1, hk1, hf1⟩ := used hfine hcomp hrS (d := sumOfWeights) (by rw [hb]; simp [depBases])
  obtain ⟨e2, he2, hu2, hk2, hf2⟩ := used hfine hcomp hrS (d := tailWeights sd) (by rw [hb]; simp [depBases])
  obtain ⟨e3, he3, hu3, hk3, hf3⟩ := used hfine hcomp he2 (d := StdF.tail sd) (by
    rw [prov_weights hf2 hk2]; simp [depBases])
  have hsw : Cell.statOf cfg s.env .sumOfWeights = .val ((Spec.weightedSamples as).map Prod.snd).sum := by
    rw [← map_ws]
    exact usedStat_eq hirr hfine hcomp hne hpos' hu1 hk1 rfl huse
  obtain ⟨s', slots, hT1, hT2⟩ := tailRun_inv cfg.heap sd hk (0 : K) (([], 0) : List K × K)
    (onlyPushes (Spec.withBoth v1 as))
  obtain ⟨out, hT3, hT4, -⟩ := hT2.result cfg.heap
  have hT : TailIs cfg sd v1 as s' (out.map Prod.fst) (out.map Prod.snd) := ⟨hT1, hT3, hT4⟩
  have hown : Cell.tailOf s.env = .val s'.own := by
    rw [tailOf_eq hpos' hf3 hk3 (huse e3 (uses_trans hu2 hu3)), hT.run]
    rfl
  have hlen : s'.variates.length = cfg.tailCache := by rw [hT2.variates, List.length_map, hT2.len]
  obtain ⟨c2, h3, h4⟩ := huse e2 hu2
  rw [h4 hpos', hk2, prov_weights hf2 hk2] at h3
  obtain ⟨c3, h5, h6⟩ := huse e3 (uses_trans hu2 hu3)
  rw [h6 hpos', hk3, prov_tail hf3 hk3] at h5
  obtain ⟨c0, h7, h8⟩ := h2 r (Or.inl rfl)
  rw [h8 hpos', hrk, hb] at h7
  have hz : s'.variates.map (fun _ => (0 : K)) = List.replicate cfg.tailCache 0 := by
    rw [List.map_const', hlen]
  have htl : Cell.readN cfg s.env p 3 abstractTail = .list (.val (out.map Prod.fst)) := by
    rw [Cell.readN]
    rw [show s.env abstractTail = _ from h5]
    simp only [Cell.result, idealCell, hT.run]
    exact congrArg Out.list (own_tail hT _)
  have hwt : Cell.readN cfg s.env p 3 abstractTailWeights = .list (.val (List.replicate out.length 0)) := by
    rw [Cell.readN]
    rw [show s.env abstractTailWeights = _ from h3]
    simp only [Cell.result, idealCell, hown, if_true, ← hz]
    have := own_vars hT (fun _ => (0 : K))
    rw [show (out.map Prod.snd).map (fun _ => (0 : K)) = List.replicate out.length 0 by simp [Function.comp_def]] at this
    exact congrArg Out.list this
  unfold fullRun
  rw [h1]
  show Cell.readN cfg s.env p 4 quantile = _
  rw [Cell.readN, h7]
  have he : elementary (weightedTailQuantile sd) = false := rfl
  simp only [Cell.result, idealCell, he, Bool.false_eq_true, if_false, hsw, htl, hwt, Out.asList]
  have hW : 0 < ((Spec.weightedSamples as).map Prod.snd).sum * tailLevel sd p := by
    refine mul_pos (List.sum_pos _ ?_ (by simpa [Spec.weightedSamples] using hne)) hp
    intro x hx
    simp only [Spec.weightedSamples, List.map_map, List.mem_map, Function.comp] at hx
    obtain ⟨a, ha, rfl⟩ := hx
    exact hpos a ha
  have : wtailQuantileResult cfg.hasNaN (((Spec.weightedSamples as).map Prod.snd).sum * tailLevel sd p)
      (out.map Prod.fst) (List.replicate out.length 0) = nanOrThrow cfg.hasNaN := by
    unfold wtailQuantileResult
    rw [wtailLoop_zero _ hW]
    cases h : cfg.hasNaN <;> rfl
  exact congrArg Out.num this

end run

end

/-! ## Concrete sets -/

/-- C68 fails for the documented use of droppable accumulators: in `accumulator_set<double,
features<droppable<tail_quantile<right>>>, double>` the quantile is NaN (or an exception is thrown), whatever is pushed. -/
theorem C68_fails {cfg : Cfg ℚ} (hirr : IrrOk cfg.irr) (hk : 1 ≤ cfg.tailCache) {as : List (FArgs ℚ)} (hne : as ≠ [])
    (hpos : ∀ a ∈ as, 0 < a.w) (sd : Side) {p : ℚ} (h0 : 0 < p) (h1 : p < 1) :
    fullRun cfg true id [dr (StdF.tailQuantile sd)] as p quantile = .num (nanOrThrow cfg.hasNaN) := by
  refine C68_droppable_weights (q := .tail) (sd := sd) (v0 := 0) (v1 := 0) hirr hk true (fun l => List.Perm.refl l)
    [dr (StdF.tailQuantile sd)] (by cases sd <;> decide +kernel) rfl hne hpos ?_ (r := dr (weightedTailQuantile sd))
    ⟨[], [], rfl, by simp⟩ rfl (by cases sd <;> decide +kernel)
  cases sd
  · exact h0
  · exact sub_pos.2 h1

/-- The configuration of the examples. -/
def exampleCfg : Cfg ℚ where
  lo := -1000
  hi := 1000
  irr := fun _ _ _ => .ub
  pw := fun _ _ => .ub
  hasNaN := true
  heap := HeapImpl.simple
  window := 2
  densCache := 3
  numBins := 2
  cells := 3
  prob := 1 / 2
  probs := [1 / 4, 1 / 2]
  tailCache := 2
  potThr := 2
  potProb := 1 / 2

theorem exampleCfg_irr : IrrOk exampleCfg.irr := ⟨fun _ _ _ _ _ _ _ => rfl, fun _ _ _ _ => rfl⟩

/-- C69: estimators of all kinds in one set, with weights; the request meets the hypotheses. -/
theorem example_fine : ∀ t ∈ stdLib.asList true [tg (StdF.tailQuantile .right), tg (absoluteTailVariateMeans .right 1),
    tg withDensityMedian, tg extendedPSquare, tg kurtosis, tg (covariance 3), tg (peaksOverThreshold .right),
    tg pSquareCumul],
    fine true .tail .right 3 1 t.base = true := by
  decide +kernel

example : fullRun exampleCfg true List.reverse [tg (StdF.tailQuantile .right), tg (absoluteTailVariateMeans .right 1),
      tg withDensityMedian, tg extendedPSquare, tg kurtosis, tg (covariance 3), tg (peaksOverThreshold .right),
      tg pSquareCumul]
      [⟨⟨1, 1, fun _ => 2⟩, fun _ => [5]⟩, ⟨⟨4, 2, fun _ => 4⟩, fun _ => [6]⟩, ⟨⟨3, 1, fun _ => 4⟩, fun _ => [7]⟩]
      (1 / 2) quantile = .num (.val 4) := by
  have := C69_estimators_plain (q := .tail) (sd := .right) (v0 := 3) (v1 := 1) exampleCfg_irr (by decide) true
    List.reverse_perm [tg (StdF.tailQuantile .right), tg (absoluteTailVariateMeans .right 1),
      tg withDensityMedian, tg extendedPSquare, tg kurtosis, tg (covariance 3), tg (peaksOverThreshold .right),
      tg pSquareCumul] example_fine (by decide +kernel)
    (as := [⟨⟨1, 1, fun _ => 2⟩, fun _ => [5]⟩, ⟨⟨4, 2, fun _ => 4⟩, fun _ => [6]⟩, ⟨⟨3, 1, fun _ => 4⟩, fun _ => [7]⟩])
    (by simp) (by simp) (by decide +kernel) (r := tg (weightedTailQuantile .right)) ⟨[], _, rfl, by simp⟩ rfl (1 / 2)
  refine Eq.trans this ?_
  exact congrArg Out.num (by decide +kernel)

/-- C68: a set in which the tail, a covariate and the weights are requested along with other statistics. -/
example : ∃ (t : List ℚ) (v : List (List ℚ)) (u : List ℚ),
    fullRun exampleCfg true id [tg median, tg (tailVariate 1 .left), tg (tailWeights .left), tg (StdF.tail .left)]
      [⟨⟨1, 1, fun _ => 2⟩, fun _ => [5]⟩, ⟨⟨4, 2, fun _ => 4⟩, fun _ => [6]⟩, ⟨⟨3, 1, fun _ => 4⟩, fun _ => [7]⟩]
      0 abstractTail = .list (.val t) ∧
    fullRun exampleCfg true id [tg median, tg (tailVariate 1 .left), tg (tailWeights .left), tg (StdF.tail .left)]
      [⟨⟨1, 1, fun _ => 2⟩, fun _ => [5]⟩, ⟨⟨4, 2, fun _ => 4⟩, fun _ => [6]⟩, ⟨⟨3, 1, fun _ => 4⟩, fun _ => [7]⟩]
      0 abstractTailVariate = .vecs (.val v) ∧
    fullRun exampleCfg true id [tg median, tg (tailVariate 1 .left), tg (tailWeights .left), tg (StdF.tail .left)]
      [⟨⟨1, 1, fun _ => 2⟩, fun _ => [5]⟩, ⟨⟨4, 2, fun _ => 4⟩, fun _ => [6]⟩, ⟨⟨3, 1, fun _ => 4⟩, fun _ => [7]⟩]
      0 abstractTailWeights = .list (.val u) ∧ t = [1, 3] := by
  obtain ⟨t, v, u, h1, h2, h3, h4, -⟩ := C68_aligned_partial (q := .tail) (sd := .left) (v0 := 3) (v1 := 1) exampleCfg_irr
    (by decide) true (ord := id) (fun l => List.Perm.refl l)
    [tg median, tg (tailVariate 1 .left), tg (tailWeights .left), tg (StdF.tail .left)] (by decide +kernel)
    (by decide +kernel)
    (as := [⟨⟨1, 1, fun _ => 2⟩, fun _ => [5]⟩, ⟨⟨4, 2, fun _ => 4⟩, fun _ => [6]⟩, ⟨⟨3, 1, fun _ => 4⟩, fun _ => [7]⟩])
    (by simp) (by simp) 0 (by decide +kernel) (by decide +kernel) (by decide +kernel) (by
      intro k hk
      simp only [List.mem_cons, List.not_mem_nil, or_false] at hk
      rcases hk with rfl | rfl | rfl
      · exact ⟨tg (StdF.tail .left), by decide +kernel, ⟨tg (StdF.tail .left), by simp, rfl⟩, Or.inl rfl⟩
      · exact ⟨tg (tailVariate 1 .left), by decide +kernel, ⟨tg (tailVariate 1 .left), by simp, rfl⟩, Or.inl rfl⟩
      · exact ⟨tg (tailWeights .left), by decide +kernel, ⟨tg (tailWeights .left), by simp, rfl⟩, Or.inl rfl⟩)
  exact ⟨t, v, u, h1, h2, h3, by rw [h4]; decide +kernel⟩

/-- C69: without weights, rolling statistics beside a histogram, a coherent tail mean and P² quantiles for the median;
droppable features that do not concern the tail are allowed. -/
example : (∀ t ∈ stdLib.asList false [tg rollingVariance, dr density, tg (StdF.coherentTailMean .left),
      tg (StdF.tailQuantile .left), dr median, tg (rollingMoment 3), tg lazyVariance],
      fine false .tail .left 0 0 t.base = true) ∧
    (∀ t ∈ stdLib.accumulators false id [tg rollingVariance, dr density, tg (StdF.coherentTailMean .left),
      tg (StdF.tailQuantile .left), dr median, tg (rollingMoment 3), tg lazyVariance], t.base ≠ quantile) := by
  decide +kernel

end Acc
