import Verif.Proofs.FullStep
import Verif.Proofs.FullPot

/-!
# All statistics in one set: what every extractor returns
-/

set_option linter.unusedSectionVars false

namespace Acc

open StdF

section quantiles
variable {K : Type} [Field K] [LinearOrder K] [IsStrictOrderedRing K] [FloorRing K]

/-- Extraction that changes nothing. -/
theorem answer_read {X S R : Type} (M : RMachine X Unit S R) (f : S → Res R)
    (h : ∀ s, M.query s () = (f s).bind fun r => .val (s, r)) (l : List (Op X Unit)) :
    M.answer l () = (M.exec M.init l).bind f := by
  unfold RMachine.answer
  cases M.exec M.init l with
  | val s =>
    rw [Res.val_bind, h]
    cases hf : f s <;> simp [Res.bind, bind, pure, hf]
  | _ => rfl

theorem flat_asResult {S : Type} (s : S) (r : Res K) : Spec.flat ((asResult s r).bind fun r => .val r.2) = r := by
  cases r <;> rfl

theorem epsqQuantile_answer (kind : Interp) (nan : Bool) (ps : List K) (xs : List K) (p : K) :
    Spec.flat ((epsqQuantileSet kind nan ps).answer (onlyPushes xs) p)
      = ((epsqSet ps).answer (onlyPushes xs) ()).bind fun hs => epsqQuantile kind nan ps hs p := by
  have e : (epsqQuantileSet kind nan ps).exec (epsqQuantileSet kind nan ps).init (onlyPushes xs)
      = (epsqSet ps).exec (epsqSet ps).init (onlyPushes xs) := by
    induction xs using List.reverseRecOn with
    | nil => rfl
    | append_singleton xs x ih => rw [RMachine.exec_snoc, RMachine.exec_snoc, ih]; rfl
  rw [answer_read (epsqSet ps) (fun s => epsqResult ps.length s.heights) fun _ => rfl]
  unfold RMachine.answer
  rw [e]
  cases (epsqSet ps).exec (epsqSet ps).init (onlyPushes xs) with
  | val s =>
    rw [Res.val_bind]
    show Spec.flat (((epsqResult ps.length s.heights).bind fun hs => asResult s (epsqQuantile kind nan ps hs p)).bind
      fun r => .val r.2) = _
    simp only [Res.bind]
    cases epsqResult ps.length s.heights with
    | val hs => exact flat_asResult s _
    | _ => rfl
  | _ => rfl

theorem wepsqQuantile_answer (kind : Interp) (nan : Bool) (ps : List K) (xs : List (K × K)) (p : K) :
    Spec.flat ((wepsqQuantileSet kind nan ps).answer (onlyPushes xs) p)
      = ((wepsqSet ps).answer (onlyPushes xs) ()).bind fun hs => epsqQuantile kind nan ps hs p := by
  have e : (wepsqQuantileSet kind nan ps).exec (wepsqQuantileSet kind nan ps).init (onlyPushes xs)
      = (wepsqSet ps).exec (wepsqSet ps).init (onlyPushes xs) := by
    induction xs using List.reverseRecOn with
    | nil => rfl
    | append_singleton xs x ih => rw [RMachine.exec_snoc, RMachine.exec_snoc, ih]; rfl
  rw [answer_read (wepsqSet ps) (fun s => epsqResult ps.length s.heights) fun _ => rfl]
  unfold RMachine.answer
  rw [e]
  cases (wepsqSet ps).exec (wepsqSet ps).init (onlyPushes xs) with
  | val s =>
    rw [Res.val_bind]
    show Spec.flat (((epsqResult ps.length s.heights).bind fun hs => asResult s (epsqQuantile kind nan ps hs p)).bind
      fun r => .val r.2) = _
    simp only [Res.bind]
    cases epsqResult ps.length s.heights with
    | val hs => exact flat_asResult s _
    | _ => rfl
  | _ => rfl

end quantiles

section alone
variable {K : Type} [Field K] [LinearOrder K] [IsStrictOrderedRing K] [FloorRing K]
variable {cfg : Cfg K}

/-- The tail with both the covariate and the weights, and what it returns. -/
structure TailIs (cfg : Cfg K) (sd : Side) (v1 : ℕ) (as : List (FArgs K)) (s : TailSt K (List K × K)) (tl : List K)
    (vl : List (List K × K)) : Prop where
  run : tailBoth cfg sd v1 as = .val s
  tail : tailResult cfg.heap sd s = .val tl
  vars : tailVariateResult cfg.heap sd s = .val vl

theorem tailIs (hk : 1 ≤ cfg.tailCache) (sd : Side) (v1 : ℕ) (as : List (FArgs K)) :
    ∃ s tl vl, TailIs cfg sd v1 as s tl vl := by
  obtain ⟨s, slots, h1, h2⟩ := tailRun_inv cfg.heap sd hk (0 : K) (([], 0) : List K × K)
    (onlyPushes (Spec.withBoth v1 as))
  obtain ⟨out, h3, h4, -⟩ := h2.result cfg.heap
  exact ⟨s, _, _, h1, h3, h4⟩

variable {sd : Side} {v1 : ℕ} {as : List (FArgs K)} {s : TailSt K (List K × K)} {tl : List K} {vl : List (List K × K)}
  (h : TailIs cfg sd v1 as s tl vl)

include h

theorem run_bare : tailRun cfg.heap sd cfg.tailCache 0 () (onlyPushes (Spec.bare as)) = .val (s.map id fun _ => ()) := by
  have := tailRun_forget cfg.heap sd cfg.tailCache (0 : K) (([], 0) : List K × K) (fun _ => ()) (Spec.withBoth v1 as)
  have e : (Spec.withBoth v1 as).map (fun p => (p.1, ())) = Spec.bare as := by
    simp [Spec.withBoth, Spec.bare]
  rw [e, show tailRun _ _ _ _ _ (onlyPushes (Spec.withBoth v1 as)) = tailBoth cfg sd v1 as from rfl, h.run] at this
  exact this

theorem run_variate :
    tailRun cfg.heap sd cfg.tailCache 0 [] (onlyPushes (Spec.withVariate v1 as)) = .val (s.map id Prod.fst) := by
  have := tailRun_forget cfg.heap sd cfg.tailCache (0 : K) (([], 0) : List K × K) Prod.fst (Spec.withBoth v1 as)
  have e : (Spec.withBoth v1 as).map (fun p => (p.1, p.2.1)) = Spec.withVariate v1 as := by
    simp [Spec.withBoth, Spec.withVariate]
  rw [e, show tailRun _ _ _ _ _ (onlyPushes (Spec.withBoth v1 as)) = tailBoth cfg sd v1 as from rfl, h.run] at this
  exact this

theorem run_weights :
    tailRun cfg.heap sd cfg.tailCache 0 0 (onlyPushes (Spec.weightedSamples as)) = .val (s.map id Prod.snd) := by
  have := tailRun_forget cfg.heap sd cfg.tailCache (0 : K) (([], 0) : List K × K) Prod.snd (Spec.withBoth v1 as)
  have e : (Spec.withBoth v1 as).map (fun p => (p.1, p.2.2)) = Spec.weightedSamples as := by
    simp [Spec.withBoth, Spec.weightedSamples]
  rw [e, show tailRun _ _ _ _ _ (onlyPushes (Spec.withBoth v1 as)) = tailBoth cfg sd v1 as from rfl, h.run] at this
  exact this

theorem tail_map {W : Type} (g : List K × K → W) : tailResult cfg.heap sd (s.map id g) = .val tl := by
  rw [tailResult_map (side := sd) (f := id) (fun _ _ => rfl) g cfg.heap s, h.tail]
  simp [Functor.map, Res.bind]

theorem vars_map {W : Type} (g : List K × K → W) : tailVariateResult cfg.heap sd (s.map id g) = .val (vl.map g) := by
  rw [tailVariateResult_map (side := sd) (f := id) (fun _ _ => rfl) g cfg.heap s, h.vars]
  simp [Functor.map, Res.bind]

theorem own_tail {W : Type} (l : List W) : tailResult cfg.heap sd (s.own.join l) = .val tl := by
  rw [tailResult_own, h.tail]

theorem own_vars {W : Type} (g : List K × K → W) :
    tailVariateResult cfg.heap sd (s.own.join (s.variates.map g)) = .val (vl.map g) := by
  rw [tailVariateResult_join, h.vars]
  simp [Functor.map, Res.bind]

omit h in
theorem length_bare (as : List (FArgs K)) : (Spec.bare as).length = as.length := by simp [Spec.bare]
omit h in
theorem length_withVariate (as : List (FArgs K)) : (Spec.withVariate v1 as).length = as.length := by
  simp [Spec.withVariate]

omit h in
theorem threshold_weights (side : Side) (as : List (FArgs K)) (p : K) :
    wtailThreshold side ((Spec.weightedSamples as).map fun q => id q.2) p
      = ((Spec.weightedSamples as).map Prod.snd).sum * tailLevel side p := by
  unfold wtailThreshold
  rw [foldl_add_sum, zero_add]
  rfl

omit h in
theorem threshold_both (side : Side) (as : List (FArgs K)) (p : K) :
    wtailThreshold side ((Spec.withBoth v1 as).map fun q => q.2.2) p
      = ((Spec.weightedSamples as).map Prod.snd).sum * tailLevel side p := by
  unfold wtailThreshold
  rw [foldl_add_sum, zero_add]
  simp [Spec.withBoth, Spec.weightedSamples, Function.comp_def]

/-- What the tail estimators return, alone. -/
theorem alone_tail (p : K) : Spec.alone cfg as p (StdF.tail sd) = .list (.val tl) := by
  simp only [Spec.alone, extractTail, run_bare h, Res.val_bind, tail_map h]

theorem alone_variate (p : K) : Spec.alone cfg as p (StdF.tailVariate v1 sd) = .vecs (.val (vl.map Prod.fst)) := by
  simp only [Spec.alone, extractTailVariate, run_variate h, Res.val_bind, vars_map h]

theorem alone_weights (p : K) : Spec.alone cfg as p (StdF.tailWeights sd) = .list (.val (vl.map Prod.snd)) := by
  simp only [Spec.alone, extractTailVariate, run_weights h, Res.val_bind, vars_map h]

theorem alone_tailQuantile (p : K) : Spec.alone cfg as p (StdF.tailQuantile sd)
    = .num ((tailN sd as.length p).bind fun m => tailQuantileResult cfg.hasNaN m tl) := by
  simp only [Spec.alone, Acc.tailQuantile, run_bare h, Res.val_bind, tail_map h, pushes_onlyPushes, length_bare]
  rfl

theorem alone_nctm (p : K) : Spec.alone cfg as p (StdF.nonCoherentTailMean sd)
    = .num ((tailN sd as.length p).bind fun m => nonCoherentTailMeanResult cfg.hasNaN m tl) := by
  simp only [Spec.alone, Acc.nonCoherentTailMean, run_bare h, Res.val_bind, tail_map h, pushes_onlyPushes, length_bare]
  rfl

theorem alone_ctm (p : K) : Spec.alone cfg as p (StdF.coherentTailMean sd)
    = .num ((tailN sd as.length p).bind fun m => coherentTailMeanOf sd as.length m p
        (nonCoherentTailMeanResult cfg.hasNaN m tl) (tailQuantileResult cfg.hasNaN m tl)) := by
  simp only [Spec.alone, Acc.coherentTailMean, run_bare h, Res.val_bind, tail_map h, pushes_onlyPushes, length_bare]
  rfl

theorem alone_atvm (p : K) : Spec.alone cfg as p (StdF.absoluteTailVariateMeans sd v1)
    = .list ((tailN sd as.length p).bind fun m => tailVariateMeansOf false cfg.hasNaN m
        (nonCoherentTailMeanResult cfg.hasNaN m tl) tl (vl.map Prod.fst)) := by
  simp only [Spec.alone, Acc.tailVariateMeans, run_variate h, Res.val_bind, tail_map h, vars_map h, pushes_onlyPushes,
    length_withVariate]
  rfl

theorem alone_rtvm (p : K) : Spec.alone cfg as p (StdF.relativeTailVariateMeans sd v1)
    = .list ((tailN sd as.length p).bind fun m => tailVariateMeansOf true cfg.hasNaN m
        (nonCoherentTailMeanResult cfg.hasNaN m tl) tl (vl.map Prod.fst)) := by
  simp only [Spec.alone, Acc.tailVariateMeans, run_variate h, Res.val_bind, tail_map h, vars_map h, pushes_onlyPushes,
    length_withVariate]
  rfl

theorem alone_wtailQuantile (p : K) : Spec.alone cfg as p (StdF.weightedTailQuantile sd)
    = .num (wtailQuantileResult cfg.hasNaN (((Spec.weightedSamples as).map Prod.snd).sum * tailLevel sd p) tl
        (vl.map Prod.snd)) := by
  simp only [Spec.alone, wtailQuantile, run_weights h, Res.val_bind, tail_map h, vars_map h, pushes_onlyPushes,
    threshold_weights, List.map_id]

theorem alone_wnctm (p : K) : Spec.alone cfg as p (StdF.nonCoherentWeightedTailMean sd)
    = .num (wtailMeanResult cfg.hasNaN (((Spec.weightedSamples as).map Prod.snd).sum * tailLevel sd p) tl
        (vl.map Prod.snd)) := by
  simp only [Spec.alone, wtailMean, run_weights h, Res.val_bind, tail_map h, vars_map h, pushes_onlyPushes,
    threshold_weights, List.map_id]

theorem run_both : tailRun cfg.heap sd cfg.tailCache 0 ([], 0) (onlyPushes (Spec.withBoth v1 as)) = .val s := h.run

theorem alone_watvm (p : K) : Spec.alone cfg as p (StdF.absoluteWeightedTailVariateMeans sd v1)
    = .list (wtailVariateMeansOf false cfg.hasNaN (((Spec.weightedSamples as).map Prod.snd).sum * tailLevel sd p)
        (wtailMeanResult cfg.hasNaN (((Spec.weightedSamples as).map Prod.snd).sum * tailLevel sd p) tl (vl.map Prod.snd))
        (vl.map Prod.fst) (vl.map Prod.snd)) := by
  simp only [Spec.alone, wtailVariateMeans, run_both h, Res.val_bind, h.tail, h.vars, pushes_onlyPushes,
    threshold_both]
  rfl

theorem alone_wrtvm (p : K) : Spec.alone cfg as p (StdF.relativeWeightedTailVariateMeans sd v1)
    = .list (wtailVariateMeansOf true cfg.hasNaN (((Spec.weightedSamples as).map Prod.snd).sum * tailLevel sd p)
        (wtailMeanResult cfg.hasNaN (((Spec.weightedSamples as).map Prod.snd).sum * tailLevel sd p) tl (vl.map Prod.snd))
        (vl.map Prod.fst) (vl.map Prod.snd)) := by
  simp only [Spec.alone, wtailVariateMeans, run_both h, Res.val_bind, h.tail, h.vars, pushes_onlyPushes,
    threshold_both]
  rfl

theorem alone_potProb (p : K) : Spec.alone cfg as p (StdF.peaksOverThresholdProb sd)
    = .fit ((potProbQuery cfg.pw cfg.heap sd cfg.hasNaN ⟨as.length, s.own.join ([] : List Unit), .val 0, .val 0,
        cfg.potProb, (.val 0, .val 0, .val 0), true⟩).bind fun r => .val r.2) := by
  simp only [Spec.alone]
  congr 1
  have ht : tailExec cfg.heap sd (potProbInit cfg.tailCache () cfg.potProb : PotProbSt K Unit).tail
      (onlyPushes (Spec.bare as)) = .val (s.map id fun _ => ()) := run_bare h
  unfold RMachine.answer
  have e := potProb_exec_pushes cfg.pw cfg.heap sd cfg.hasNaN cfg.tailCache () cfg.potProb (Spec.bare as)
    (potProbInit cfg.tailCache () cfg.potProb) ht
  rw [show (potProbSet cfg.pw cfg.heap sd cfg.hasNaN cfg.tailCache () cfg.potProb).init
    = potProbInit cfg.tailCache () cfg.potProb from rfl, e, Res.val_bind]
  rw [potProb_fit_congr cfg.pw cfg.heap sd cfg.hasNaN as.length (t' := s.map id fun _ => ())
    (by rw [own_tail h, tail_map h])]
  have e2 : ({ (potProbInit cfg.tailCache () cfg.potProb : PotProbSt K Unit) with
      cnt := (potProbInit cfg.tailCache () cfg.potProb : PotProbSt K Unit).cnt + (Spec.bare as).length
      tail := s.map id fun _ => ()
      dirty := if Spec.bare as = [] then (potProbInit cfg.tailCache () cfg.potProb : PotProbSt K Unit).dirty else true }
      : PotProbSt K Unit)
      = ⟨as.length, s.map id fun _ => (), .val 0, .val 0, cfg.potProb, (.val 0, .val 0, .val 0), true⟩ := by
    simp [potProbInit, length_bare]
  rw [e2]
  rfl

theorem alone_wpotProb (p : K) : Spec.alone cfg as p (StdF.weightedPeaksOverThresholdProb sd)
    = .fit ((wpotProbQuery cfg.pw cfg.heap sd cfg.hasNaN ⟨((Spec.weightedSamples as).map Prod.snd).sum,
        s.own.join (s.variates.map Prod.snd), .val 0, .val 0,
        cfg.potProb, (.val 0, .val 0, .val 0), true⟩).bind fun r => .val r.2) := by
  simp only [Spec.alone]
  congr 1
  have ht : tailExec cfg.heap sd (wpotProbInit cfg.tailCache cfg.potProb : WPotProbSt K).tail
      (onlyPushes (Spec.weightedSamples as)) = .val (s.map id Prod.snd) := run_weights h
  unfold RMachine.answer
  have e := wpotProb_exec_pushes cfg.pw cfg.heap sd cfg.hasNaN cfg.tailCache cfg.potProb (Spec.weightedSamples as)
    (wpotProbInit cfg.tailCache cfg.potProb) ht
  rw [show (wpotProbSet cfg.pw cfg.heap sd cfg.hasNaN cfg.tailCache cfg.potProb).init
    = wpotProbInit cfg.tailCache cfg.potProb from rfl, e, Res.val_bind]
  have e1 : s.own.join (s.variates.map Prod.snd) = s.map id Prod.snd := by
    simp [TailSt.own, TailOwn.join, TailSt.map]
  have e2 : ({ (wpotProbInit cfg.tailCache cfg.potProb : WPotProbSt K) with
      total := (wpotProbInit cfg.tailCache cfg.potProb : WPotProbSt K).total + Spec.wtotal (Spec.weightedSamples as)
      tail := s.map id Prod.snd
      dirty := if Spec.weightedSamples as = [] then (wpotProbInit cfg.tailCache cfg.potProb : WPotProbSt K).dirty
        else true } : WPotProbSt K)
      = ⟨((Spec.weightedSamples as).map Prod.snd).sum, s.map id Prod.snd, .val 0, .val 0, cfg.potProb,
          (.val 0, .val 0, .val 0), true⟩ := by
    simp [wpotProbInit, Spec.wtotal]
  rw [e2, e1]
  rfl

end alone

section read
variable {K : Type} [Field K] [LinearOrder K] [IsStrictOrderedRing K] [FloorRing K]
variable {cfg : Cfg K} (hirr : IrrOk cfg.irr) (hk : 1 ≤ cfg.tailCache)
variable {w : Bool} {q : QFamily} {sd : Side} {v0 v1 : ℕ} {dv dw : Bool} {S : List (Tag StdF)}
  (hfine : ∀ t ∈ S, fine w q sd v0 v1 t.base = true) (hnq : ∀ t ∈ S, t.base ≠ quantile) (hcomp : Complete stdLib S)

/-- What a feature of the set should return: the elementary statistics by their formula, the others as if they were
alone. -/
def full (cfg : Cfg K) (w : Bool) (v0 : ℕ) (as : List (FArgs K)) (p : K) (f : StdF) : Out K :=
  if elementary f then .num (stat cfg.irr w v0 cfg.lo cfg.hi (as.map FArgs.toArgs) (key f)) else Spec.alone cfg as p f

theorem full_other {as : List (FArgs K)} {p : K} {f : StdF} (h : elementary f = false) :
    full cfg w v0 as p f = Spec.alone cfg as p f := by
  unfold full
  rw [h]
  rfl

include hfine hcomp in
/-- What an accumulator uses through another. -/
theorem used2 {t : Tag StdF} (ht : t ∈ S) {d d' : StdF} (hd : d ∈ depBases t.base)
    (h : ∀ g, fine w q sd v0 v1 g = true → key g = key d → d' ∈ depBases g) :
    ∃ e ∈ S, Spec.Uses stdLib S t e ∧ stdLib.tkey e = key d' ∧ fine w q sd v0 v1 e.base = true := by
  obtain ⟨e, he, hue, hek, hef⟩ := used hfine hcomp ht hd
  obtain ⟨e', he', hue', hek', hef'⟩ := used hfine hcomp he (h e.base hef hek)
  exact ⟨e', he', uses_trans hue hue', hek', hef'⟩

include hirr hk hfine hnq hcomp in
/-- The result of an accumulator is what it would be in a set of its own. -/
theorem result_alone {as : List (FArgs K)} (hne : as ≠ []) (hpos : Args.Pos w (as.map FArgs.toArgs))
    {env : Env StdF (Cell K)} {t : Tag StdF} (ht : t ∈ S) (he : elementary t.base = false) {p : K} {rd : StdF → Out K}
    (hh : ∀ e, Below stdLib S t e → Holds stdLib (GoodFull cfg w sd v1 dv dw) as env e)
    (hrd : ∀ e, Spec.Uses stdLib S t e → rd (stdLib.tkey e) = full cfg w v0 as p e.base)
    (hv : ∀ e, Below stdLib S t e → stdLib.tkey e = abstractTailVariate → dv = false)
    (hw : ∀ e, Below stdLib S t e → stdLib.tkey e = abstractTailWeights → dw = false) :
    Cell.result cfg env p rd t.base (idealCell cfg sd v1 dv dw as t.base) = Spec.alone cfg as p t.base := by
  obtain ⟨s, tl, vl, hT⟩ := tailIs hk sd v1 as
  have huse : ∀ e, Spec.Uses stdLib S t e → Holds stdLib (GoodFull cfg w sd v1 dv dw) as env e :=
    fun e h => hh e (Or.inr h)
  have hn : count ∈ depBases t.base → Cell.countOf env = as.length := fullCount_eq hfine hcomp hpos ht huse
  -- what can be read
  have hsw : (∃ e ∈ S, Spec.Uses stdLib S t e ∧ stdLib.tkey e = sumOfWeights ∧ fine w q sd v0 v1 e.base = true) →
      Cell.statOf cfg env .sumOfWeights = .val ((Spec.weightedSamples as).map Prod.snd).sum := by
    rintro ⟨e, heS, hue, hek, -⟩
    rw [← map_ws]
    exact usedStat_eq hirr hfine hcomp hne hpos hue hek rfl huse
  have hwin : (∃ e ∈ S, Spec.Uses stdLib S t e ∧ stdLib.tkey e = rollingWindowPlus1 ∧
      fine w q sd v0 v1 e.base = true) → Cell.windowOf env
      = some (rollRun .immediate cfg.window 0 (Spec.samples as)).b := by
    rintro ⟨e, heS, hue, hek, -⟩
    exact window_eq hpos hek (huse e hue)
  have hrd' : ∀ {g : StdF} {k : StdF}, elementary g = false → (∃ e ∈ S, Spec.Uses stdLib S t e ∧ stdLib.tkey e = k ∧
      fine w q sd v0 v1 e.base = true) → (∀ e ∈ S, fine w q sd v0 v1 e.base = true → stdLib.tkey e = k → e.base = g) →
      rd k = Spec.alone cfg as p g := by
    rintro g k hg ⟨e, heS, hue, hek, hef⟩ hb
    rw [← hek, hrd e hue, hb e heS hef hek, full_other hg]
  have hmean : (∃ e ∈ S, Spec.Uses stdLib S t e ∧ stdLib.tkey e = rollingMean ∧ fine w q sd v0 v1 e.base = true) →
      rd rollingMean = .num (rollRun .immediate cfg.window 0 (Spec.samples as)).imean := by
    rintro ⟨e, heS, hue, hek, hef⟩
    rw [← hek, hrd e hue]
    rcases prov_rollMean hef hek with h | h <;> rw [h] <;> rfl
  have hrtail : (∃ e ∈ S, Spec.Uses stdLib S t e ∧ stdLib.tkey e = abstractTail ∧ fine w q sd v0 v1 e.base = true) →
      rd abstractTail = .list (.val tl) := by
    intro h
    rw [hrd' (g := StdF.tail sd) rfl h fun e _ hf hk => prov_tail hf hk, alone_tail hT]
  have hrvar : (∃ e ∈ S, Spec.Uses stdLib S t e ∧ stdLib.tkey e = abstractTailVariate ∧
      fine w q sd v0 v1 e.base = true) → rd abstractTailVariate = .vecs (.val (vl.map Prod.fst)) := by
    intro h
    rw [hrd' (g := tailVariate v1 sd) rfl h fun e _ hf hk => prov_variate hf hk, alone_variate hT]
  have hrwt : (∃ e ∈ S, Spec.Uses stdLib S t e ∧ stdLib.tkey e = abstractTailWeights ∧
      fine w q sd v0 v1 e.base = true) → rd abstractTailWeights = .list (.val (vl.map Prod.snd)) := by
    intro h
    rw [hrd' (g := tailWeights sd) rfl h fun e _ hf hk => prov_weights hf hk, alone_weights hT]
  have hown : (∃ e ∈ S, Spec.Uses stdLib S t e ∧ stdLib.tkey e = abstractTail ∧ fine w q sd v0 v1 e.base = true) →
      Cell.tailOf env = .val s.own := by
    rintro ⟨e, heS, hue, hek, hef⟩
    rw [tailOf_eq hpos hef hek (huse e hue), hT.run]
    rfl
  have hwts : (∃ e ∈ S, Spec.Uses stdLib S t e ∧ stdLib.tkey e = abstractTailWeights ∧
      fine w q sd v0 v1 e.base = true) → ∃ f, env abstractTailWeights
        = some (f, .weights (.val (s.variates.map Prod.snd))) := by
    rintro ⟨e, heS, hue, hek, hef⟩
    obtain ⟨c, h1, h2⟩ := huse e hue
    have hd := hw e (Or.inr hue) hek
    rw [h2 hpos, hek, prov_weights hef hek] at h1
    simp only [idealCell, hd, hT.run] at h1
    exact ⟨_, h1⟩
  have hsame := fine_same (hfine t ht)
  have hnice := fine_nice (hfine t ht)
  have hv' : stdLib.tkey t = abstractTailVariate → dv = false := hv t (Or.inl rfl)
  have hw' : stdLib.tkey t = abstractTailWeights → dw = false := hw t (Or.inl rfl)
  have hkt : stdLib.tkey t = key t.base := rfl
  rw [hkt] at hv' hw'
  have hdep : ∀ {d}, d ∈ depBases t.base → ∃ e ∈ S, Spec.Uses stdLib S t e ∧ stdLib.tkey e = key d ∧
      fine w q sd v0 v1 e.base = true := fun hd => used hfine hcomp ht hd
  have hdep2 : ∀ {d d'}, d ∈ depBases t.base → (∀ g, fine w q sd v0 v1 g = true → key g = key d → d' ∈ depBases g) →
      ∃ e ∈ S, Spec.Uses stdLib S t e ∧ stdLib.tkey e = key d' ∧ fine w q sd v0 v1 e.base = true :=
    fun hd h => used2 hfine hcomp ht hd h
  have hq0 := hnq t ht
  clear hrd hh huse hv hw hkt
  revert he hn hsame hnice hv' hw' hdep hdep2 hq0
  generalize t.base = f
  intro he hn hsame hnice hv' hw' hdep hdep2 hq0
  cases f <;> first
    | (cases he; done)
    | (cases w <;> cases hnice; done)
    | rfl
    | skip
  case pSquareQuantile => exact congrArg Out.num (answer_read _ _ (fun _ => rfl) _).symm
  case pSquareQuantileForMedian => exact congrArg Out.num (answer_read _ _ (fun _ => rfl) _).symm
  case weightedPSquareQuantile => exact congrArg Out.num (answer_read _ _ (fun _ => rfl) _).symm
  case weightedPSquareQuantileForMedian => exact congrArg Out.num (answer_read _ _ (fun _ => rfl) _).symm
  case extendedPSquare => exact congrArg Out.list (answer_read _ _ (fun _ => rfl) _).symm
  case weightedExtendedPSquare => exact congrArg Out.list (answer_read _ _ (fun _ => rfl) _).symm
  case rollingWindow => simp only [Cell.result, idealCell, he, Bool.false_eq_true, if_false, Spec.alone, hwin (hdep (d := rollingWindowPlus1) (by simp [depBases]))]
  case rollingCount => simp only [Cell.result, idealCell, he, Bool.false_eq_true, if_false, Spec.alone, withWindow_eq (hwin (hdep (d := rollingWindowPlus1) (by simp [depBases])))]
  case rollingMoment m =>
    simp only [Cell.result, idealCell, he, Bool.false_eq_true, if_false, Spec.alone, withWindow_eq (hwin (hdep (d := rollingWindowPlus1) (by simp [depBases])))]
  case rollingVariance =>
    simp only [Cell.result, idealCell, he, Bool.false_eq_true, if_false, Spec.alone, withWindow_eq (hwin (hdep (d := rollingWindowPlus1) (by simp [depBases])))]
  case immediateRollingVariance =>
    simp only [Cell.result, idealCell, he, Bool.false_eq_true, if_false, Spec.alone, withWindow_eq (hwin (hdep (d := rollingWindowPlus1) (by simp [depBases])))]
  case lazyRollingVariance =>
    have h1 := hwin (hdep2 (d := StdF.rollingCount) (d' := rollingWindowPlus1) (by simp [depBases]) (by
      intro g _ hk
      cases g <;> first | (cases hk; done) | simp [depBases]))
    have h2 := hrd' (g := rollingMoment 2) rfl (hdep (d := rollingMoment 2) (by simp [depBases]))
      fun e _ _ hk => prov_rollMoment hk
    have h3 := hmean (hdep (d := rollingMean) (by simp [depBases]))
    simp only [key] at h2
    simp only [Cell.result, idealCell, he, Bool.false_eq_true, if_false, Spec.alone, withWindow_eq h1, h2, h3, Out.asNum]
    rfl
  case density =>
    simp only [Cell.result, idealCell, he, Bool.false_eq_true, if_false, Spec.alone, density_answer_exec, hn (by simp [depBases]), length_samples]
  case weightedDensity =>
    simp only [Cell.result, idealCell, he, Bool.false_eq_true, if_false, Spec.alone, wdensity_answer_exec, hsw (hdep (d := sumOfWeights) (by simp [depBases]))]
    rfl
  case pSquareCumul =>
    simp only [Cell.result, idealCell, he, Bool.false_eq_true, if_false, Spec.alone, cumul_answer, hn (by simp [depBases]), length_samples]
  case weightedPSquareCumul =>
    simp only [Cell.result, idealCell, he, Bool.false_eq_true, if_false, Spec.alone, wcumul_answer, hsw (hdep (d := sumOfWeights) (by simp [depBases]))]
    rfl
  case extendedPSquareQuantile =>
    obtain rfl : w = false := by cases w <;> first | rfl | cases hnice
    have h1 := hrd' (g := extendedPSquare) rfl (hdep (d := extendedPSquare) (by simp [depBases]))
      fun e _ hf hk => prov_epsq hf hk
    simp only [key] at h1
    simp only [Cell.result, idealCell, he, Bool.false_eq_true, if_false, h1, Spec.alone, Out.asList, epsqQuantile_answer]
  case extendedPSquareQuantileQuadratic =>
    obtain rfl : w = false := by cases w <;> first | rfl | cases hnice
    have h1 := hrd' (g := extendedPSquare) rfl (hdep (d := extendedPSquare) (by simp [depBases]))
      fun e _ hf hk => prov_epsq hf hk
    simp only [key] at h1
    simp only [Cell.result, idealCell, he, Bool.false_eq_true, if_false, h1, Spec.alone, Out.asList, epsqQuantile_answer]
  case weightedExtendedPSquareQuantile =>
    obtain rfl : w = true := by cases w <;> first | rfl | cases hnice
    have h1 := hrd' (g := weightedExtendedPSquare) rfl (hdep (d := weightedExtendedPSquare) (by simp [depBases]))
      fun e _ hf hk => prov_epsq hf hk
    simp only [key] at h1
    simp only [Cell.result, idealCell, he, Bool.false_eq_true, if_false, h1, Spec.alone, Out.asList, wepsqQuantile_answer]
  case weightedExtendedPSquareQuantileQuadratic =>
    obtain rfl : w = true := by cases w <;> first | rfl | cases hnice
    have h1 := hrd' (g := weightedExtendedPSquare) rfl (hdep (d := weightedExtendedPSquare) (by simp [depBases]))
      fun e _ hf hk => prov_epsq hf hk
    simp only [key] at h1
    simp only [Cell.result, idealCell, he, Bool.false_eq_true, if_false, h1, Spec.alone, Out.asList, wepsqQuantile_answer]
  case median =>
    have h1 := hrd' (g := pSquareQuantileForMedian) rfl (hdep (d := pSquareQuantileForMedian) (by simp [depBases]))
      fun e _ _ hk => prov_forMedian hk
    simp only [key] at h1
    simp only [Cell.result, idealCell, he, Bool.false_eq_true, if_false, h1, Spec.alone, Out.asNum]
  case weightedMedian =>
    have h1 := hrd' (g := weightedPSquareQuantileForMedian) rfl
      (hdep (d := weightedPSquareQuantileForMedian) (by simp [depBases])) fun e _ _ hk => prov_wforMedian hk
    simp only [key] at h1
    simp only [Cell.result, idealCell, he, Bool.false_eq_true, if_false, h1, Spec.alone, Out.asNum]
  case withDensityMedian =>
    obtain rfl : w = false := by cases w <;> first | rfl | cases hnice
    have h1 := hrd' (g := density) rfl (hdep (d := density) (by simp [depBases]))
      fun e _ hf hk => prov_density hf hk
    simp only [key] at h1
    simp only [Cell.result, idealCell, he, Bool.false_eq_true, if_false, h1, Spec.alone, Out.asHist, dmedian_answer, hn (by simp [depBases]), if_true,
      length_samples]
  case withDensityWeightedMedian =>
    obtain rfl : w = true := by cases w <;> first | rfl | cases hnice
    have h1 := hrd' (g := weightedDensity) rfl (hdep (d := weightedDensity) (by simp [depBases]))
      fun e _ hf hk => prov_density hf hk
    simp only [key] at h1
    simp only [Cell.result, idealCell, he, Bool.false_eq_true, if_false, h1, Spec.alone, Out.asHist, wdmedian_answer, hn (by simp [depBases]), if_true,
      length_weightedSamples]
  case withCumulMedian =>
    obtain rfl : w = false := by cases w <;> first | rfl | cases hnice
    have h1 := hrd' (g := pSquareCumul) rfl (hdep (d := pSquareCumul) (by simp [depBases]))
      fun e _ hf hk => prov_cumul hf hk
    simp only [key] at h1
    simp only [Cell.result, idealCell, he, Bool.false_eq_true, if_false, h1, Spec.alone, Out.asHist, cmedian_pushed, if_true]
  case withCumulWeightedMedian =>
    obtain rfl : w = true := by cases w <;> first | rfl | cases hnice
    have h1 := hrd' (g := weightedPSquareCumul) rfl (hdep (d := weightedPSquareCumul) (by simp [depBases]))
      fun e _ hf hk => prov_cumul hf hk
    simp only [key] at h1
    simp only [Cell.result, idealCell, he, Bool.false_eq_true, if_false, h1, Spec.alone, Out.asHist, wcmedian_pushed, if_true]
  case tail s' =>
    obtain rfl : s' = sd := by simpa [sameTail] using hsame
    rw [alone_tail hT]
    simp only [Cell.result, idealCell, he, Bool.false_eq_true, if_false, hT.run]
    exact congrArg Out.list (own_tail hT _)
  case tailVariate v s' =>
    obtain ⟨rfl, rfl⟩ : s' = sd ∧ v = v1 := by simpa [sameTail] using hsame
    rw [alone_variate hT]
    simp only [Cell.result, idealCell, he, Bool.false_eq_true, if_false, hT.run, hv' rfl, hown (hdep (d := StdF.tail s') (by simp [depBases]))]
    exact congrArg Out.vecs (own_vars hT _)
  case tailWeights s' =>
    obtain rfl : s' = sd := by simpa [sameTail] using hsame
    rw [alone_weights hT]
    simp only [Cell.result, idealCell, he, Bool.false_eq_true, if_false, hT.run, hw' rfl, hown (hdep (d := StdF.tail s') (by simp [depBases]))]
    exact congrArg Out.list (own_vars hT _)
  case tailQuantile s' =>
    obtain rfl : s' = sd := by simpa [sameTail] using hsame
    rw [alone_tailQuantile hT]
    simp only [Cell.result, idealCell, he, Bool.false_eq_true, if_false, hn (by simp [depBases]), hrtail (hdep (d := StdF.tail s') (by simp [depBases])), Out.asList]
    rfl
  case nonCoherentTailMean s' =>
    obtain rfl : s' = sd := by simpa [sameTail] using hsame
    rw [alone_nctm hT]
    simp only [Cell.result, idealCell, he, Bool.false_eq_true, if_false, hn (by simp [depBases]), hrtail (hdep (d := StdF.tail s') (by simp [depBases])), Out.asList]
    rfl
  case coherentTailMean s' =>
    obtain rfl : s' = sd := by simpa [sameTail] using hsame
    obtain ⟨rfl, rfl⟩ : w = false ∧ q = .tail := by
      cases w
      · exact ⟨rfl, by simpa [nice, plain] using hnice⟩
      · cases hnice
    have h1 := hrd' (g := StdF.nonCoherentTailMean s') rfl (hdep (d := StdF.nonCoherentTailMean s') (by simp [depBases]))
      fun e _ hf hk => prov_nctm hf hk
    have h2 := hrd' (g := StdF.tailQuantile s') rfl (hdep (d := quantile) (by simp [depBases]))
      fun e he hf hk => prov_quantile hf (hnq e he) hk (by simp)
    simp only [key] at h1 h2
    rw [alone_nctm hT] at h1
    rw [alone_tailQuantile hT] at h2
    rw [alone_ctm hT]
    simp only [Cell.result, idealCell, he, Bool.false_eq_true, if_false, hn (by simp [depBases]), h1, h2, Out.asNum]
    cases tailN s' as.length p <;> rfl
  case absoluteTailVariateMeans s' v =>
    obtain ⟨rfl, rfl⟩ : s' = sd ∧ v = v1 := by simpa [sameTail] using hsame
    obtain rfl : w = false := by cases w <;> first | rfl | cases hnice
    have h1 := hrd' (g := StdF.nonCoherentTailMean s') rfl (hdep (d := StdF.nonCoherentTailMean s') (by simp [depBases]))
      fun e _ hf hk => prov_nctm hf hk
    have h2 := hrtail (hdep2 (d := StdF.nonCoherentTailMean s') (d' := StdF.tail s') (by simp [depBases]) (by
      intro g hf hk
      rw [prov_nctm hf hk]
      simp [depBases]))
    simp only [key] at h1
    rw [alone_nctm hT] at h1
    rw [alone_atvm hT]
    simp only [Cell.result, idealCell, he, Bool.false_eq_true, if_false, hn (by simp [depBases]), h1, h2, hrvar (hdep (d := tailVariate v s') (by simp [depBases])),
      Out.asNum, Out.asList, Out.asVecs]
    cases tailN s' as.length p <;> rfl
  case relativeTailVariateMeans s' v =>
    obtain ⟨rfl, rfl⟩ : s' = sd ∧ v = v1 := by simpa [sameTail] using hsame
    obtain rfl : w = false := by cases w <;> first | rfl | cases hnice
    have h1 := hrd' (g := StdF.nonCoherentTailMean s') rfl (hdep (d := StdF.nonCoherentTailMean s') (by simp [depBases]))
      fun e _ hf hk => prov_nctm hf hk
    have h2 := hrtail (hdep2 (d := StdF.nonCoherentTailMean s') (d' := StdF.tail s') (by simp [depBases]) (by
      intro g hf hk
      rw [prov_nctm hf hk]
      simp [depBases]))
    simp only [key] at h1
    rw [alone_nctm hT] at h1
    rw [alone_rtvm hT]
    simp only [Cell.result, idealCell, he, Bool.false_eq_true, if_false, hn (by simp [depBases]), h1, h2, hrvar (hdep (d := tailVariate v s') (by simp [depBases])),
      Out.asNum, Out.asList, Out.asVecs]
    cases tailN s' as.length p <;> rfl
  case weightedTailQuantile s' =>
    obtain rfl : s' = sd := by simpa [sameTail] using hsame
    have h2 := hrtail (hdep2 (d := tailWeights s') (d' := StdF.tail s') (by simp [depBases]) (by
      intro g hf hk
      rw [prov_weights hf hk]
      simp [depBases]))
    rw [alone_wtailQuantile hT]
    simp only [Cell.result, idealCell, he, Bool.false_eq_true, if_false, hsw (hdep (d := sumOfWeights) (by simp [depBases])), h2,
      hrwt (hdep (d := tailWeights s') (by simp [depBases])), Out.asList]
    rfl
  case nonCoherentWeightedTailMean s' =>
    obtain rfl : s' = sd := by simpa [sameTail] using hsame
    have h2 := hrtail (hdep2 (d := tailWeights s') (d' := StdF.tail s') (by simp [depBases]) (by
      intro g hf hk
      rw [prov_weights hf hk]
      simp [depBases]))
    rw [alone_wnctm hT]
    simp only [Cell.result, idealCell, he, Bool.false_eq_true, if_false, hsw (hdep (d := sumOfWeights) (by simp [depBases])), h2,
      hrwt (hdep (d := tailWeights s') (by simp [depBases])), Out.asList]
    rfl
  case absoluteWeightedTailVariateMeans s' v =>
    obtain ⟨rfl, rfl⟩ : s' = sd ∧ v = v1 := by simpa [sameTail] using hsame
    obtain rfl : w = true := by cases w <;> first | rfl | cases hnice
    have h1 := hrd' (g := nonCoherentWeightedTailMean s') rfl
      (hdep (d := nonCoherentWeightedTailMean s') (by simp [depBases])) fun e _ hf hk => prov_nctm hf hk
    have h2 := hsw (hdep2 (d := nonCoherentWeightedTailMean s') (d' := sumOfWeights) (by simp [depBases]) (by
      intro g hf hk
      rw [prov_nctm hf hk]
      simp [depBases]))
    simp only [key] at h1
    rw [alone_wnctm hT] at h1
    rw [alone_watvm hT]
    simp only [Cell.result, idealCell, he, Bool.false_eq_true, if_false, h1, h2, hrvar (hdep (d := tailVariate v s') (by simp [depBases])),
      hrwt (hdep (d := tailWeights s') (by simp [depBases])), Out.asNum, Out.asList, Out.asVecs]
    rfl
  case relativeWeightedTailVariateMeans s' v =>
    obtain ⟨rfl, rfl⟩ : s' = sd ∧ v = v1 := by simpa [sameTail] using hsame
    obtain rfl : w = true := by cases w <;> first | rfl | cases hnice
    have h1 := hrd' (g := nonCoherentWeightedTailMean s') rfl
      (hdep (d := nonCoherentWeightedTailMean s') (by simp [depBases])) fun e _ hf hk => prov_nctm hf hk
    have h2 := hsw (hdep2 (d := nonCoherentWeightedTailMean s') (d' := sumOfWeights) (by simp [depBases]) (by
      intro g hf hk
      rw [prov_nctm hf hk]
      simp [depBases]))
    simp only [key] at h1
    rw [alone_wnctm hT] at h1
    rw [alone_wrtvm hT]
    simp only [Cell.result, idealCell, he, Bool.false_eq_true, if_false, h1, h2, hrvar (hdep (d := tailVariate v s') (by simp [depBases])),
      hrwt (hdep (d := tailWeights s') (by simp [depBases])), Out.asNum, Out.asList, Out.asVecs]
    rfl
  case peaksOverThreshold s' =>
    simp only [Cell.result, idealCell, he, Bool.false_eq_true, if_false, Spec.alone, pot_answer, hn (by simp [depBases]), length_samples]
  case weightedPeaksOverThreshold s' =>
    simp only [Cell.result, idealCell, he, Bool.false_eq_true, if_false, Spec.alone, wpot_answer, hsw (hdep (d := sumOfWeights) (by simp [depBases]))]
    rfl
  case peaksOverThresholdProb s' =>
    obtain rfl : s' = sd := by simpa [sameTail] using hsame
    rw [alone_potProb hT]
    simp only [Cell.result, idealCell, he, Bool.false_eq_true, if_false, hn (by simp [depBases]), hown (hdep (d := StdF.tail s') (by simp [depBases]))]
    rfl
  case weightedPeaksOverThresholdProb s' =>
    obtain rfl : s' = sd := by simpa [sameTail] using hsame
    have h2 := hown (hdep2 (d := tailWeights s') (d' := StdF.tail s') (by simp [depBases]) (by
      intro g hf hk
      rw [prov_weights hf hk]
      simp [depBases]))
    obtain ⟨f', h3⟩ := hwts (hdep (d := tailWeights s') (by simp [depBases]))
    rw [alone_wpotProb hT]
    simp only [Cell.result, idealCell, he, Bool.false_eq_true, if_false, hsw (hdep (d := sumOfWeights) (by simp [depBases])), h2, h3]
    rfl
  case potQuantile s' =>
    obtain rfl : s' = sd := by simpa [sameTail] using hsame
    obtain ⟨rfl, rfl⟩ : w = false ∧ q = .pot := by
      cases w
      · exact ⟨rfl, by simpa [nice, plain] using hnice⟩
      · cases hnice
    have h1 := hrd' (g := peaksOverThreshold s') rfl (hdep (d := peaksOverThreshold s') (by simp [depBases]))
      fun e _ hf hk => prov_pot hf hk
    simp only [key] at h1
    simp only [Cell.result, idealCell, he, Bool.false_eq_true, if_false, h1, Spec.alone, Out.asFit]
    rw [potQuantile_answer _ _ _ (pot_steady _ _ _)]
  case potTailMean s' =>
    obtain rfl : s' = sd := by simpa [sameTail] using hsame
    obtain ⟨rfl, rfl⟩ : w = false ∧ q = .pot := by
      cases w
      · exact ⟨rfl, by simpa [nice, plain] using hnice⟩
      · cases hnice
    have h1 := hrd' (g := peaksOverThreshold s') rfl (hdep (d := peaksOverThreshold s') (by simp [depBases]))
      fun e _ hf hk => prov_pot hf hk
    simp only [key] at h1
    have h2 := hrd' (g := StdF.potQuantile s') rfl (hdep (d := StdF.potQuantile s') (by simp [depBases]))
      fun e he hf hk => prov_quantile hf (hnq e he) hk (by simp)
    simp only [key] at h2
    simp only [Cell.result, idealCell, he, Bool.false_eq_true, if_false, h1, h2, Spec.alone, Out.asFit, Out.asNum]
    rw [potQuantile_answer _ _ _ (pot_steady _ _ _), potTailMean_answer _ _ _ (pot_steady _ _ _)]
    generalize RMachine.answer _ _ () = r
    cases r <;> rfl
  case potQuantileProb s' =>
    obtain rfl : s' = sd := by simpa [sameTail] using hsame
    obtain ⟨rfl, rfl⟩ : w = false ∧ q = .potProb := by
      cases w
      · exact ⟨rfl, by simpa [nice, plain] using hnice⟩
      · cases hnice
    have h1 := hrd' (g := peaksOverThresholdProb s') rfl (hdep (d := peaksOverThresholdProb s') (by simp [depBases]))
      fun e _ hf hk => prov_potProb hf hk
    simp only [key] at h1
    simp only [Cell.result, idealCell, he, Bool.false_eq_true, if_false, h1, Spec.alone, Out.asFit]
    rw [potQuantile_answer _ _ _ (potProb_steady _ _ _ _ _ _ _)]
  case potTailMeanProb s' =>
    obtain rfl : s' = sd := by simpa [sameTail] using hsame
    obtain ⟨rfl, rfl⟩ : w = false ∧ q = .potProb := by
      cases w
      · exact ⟨rfl, by simpa [nice, plain] using hnice⟩
      · cases hnice
    have h1 := hrd' (g := peaksOverThresholdProb s') rfl (hdep (d := peaksOverThresholdProb s') (by simp [depBases]))
      fun e _ hf hk => prov_potProb hf hk
    simp only [key] at h1
    have h2 := hrd' (g := potQuantileProb s') rfl (hdep (d := potQuantileProb s') (by simp [depBases]))
      fun e he hf hk => prov_quantile hf (hnq e he) hk (by simp)
    simp only [key] at h2
    simp only [Cell.result, idealCell, he, Bool.false_eq_true, if_false, h1, h2, Spec.alone, Out.asFit, Out.asNum]
    rw [potQuantile_answer _ _ _ (potProb_steady _ _ _ _ _ _ _), potTailMean_answer _ _ _ (potProb_steady _ _ _ _ _ _ _)]
    generalize RMachine.answer _ _ () = r
    cases r <;> rfl
  case weightedPotQuantile s' =>
    obtain rfl : s' = sd := by simpa [sameTail] using hsame
    obtain ⟨rfl, rfl⟩ : w = true ∧ q = .pot := by
      cases w
      · cases hnice
      · exact ⟨rfl, by simpa [nice, heavy] using hnice⟩
    have h1 := hrd' (g := weightedPeaksOverThreshold s') rfl (hdep (d := weightedPeaksOverThreshold s') (by simp [depBases]))
      fun e _ hf hk => prov_pot hf hk
    simp only [key] at h1
    simp only [Cell.result, idealCell, he, Bool.false_eq_true, if_false, h1, Spec.alone, Out.asFit]
    rw [potQuantile_answer _ _ _ (wpot_steady _ _ _)]
  case weightedPotTailMean s' =>
    obtain rfl : s' = sd := by simpa [sameTail] using hsame
    obtain ⟨rfl, rfl⟩ : w = true ∧ q = .pot := by
      cases w
      · cases hnice
      · exact ⟨rfl, by simpa [nice, heavy] using hnice⟩
    have h1 := hrd' (g := weightedPeaksOverThreshold s') rfl (hdep (d := weightedPeaksOverThreshold s') (by simp [depBases]))
      fun e _ hf hk => prov_pot hf hk
    simp only [key] at h1
    have h2 := hrd' (g := weightedPotQuantile s') rfl (hdep (d := weightedPotQuantile s') (by simp [depBases]))
      fun e he hf hk => prov_quantile hf (hnq e he) hk (by simp)
    simp only [key] at h2
    simp only [Cell.result, idealCell, he, Bool.false_eq_true, if_false, h1, h2, Spec.alone, Out.asFit, Out.asNum]
    rw [potQuantile_answer _ _ _ (wpot_steady _ _ _), potTailMean_answer _ _ _ (wpot_steady _ _ _)]
    generalize RMachine.answer _ _ () = r
    cases r <;> rfl
  case weightedPotQuantileProb s' =>
    obtain rfl : s' = sd := by simpa [sameTail] using hsame
    obtain ⟨rfl, rfl⟩ : w = true ∧ q = .potProb := by
      cases w
      · cases hnice
      · exact ⟨rfl, by simpa [nice, heavy] using hnice⟩
    have h1 := hrd' (g := weightedPeaksOverThresholdProb s') rfl (hdep (d := weightedPeaksOverThresholdProb s') (by simp [depBases]))
      fun e _ hf hk => prov_potProb hf hk
    simp only [key] at h1
    simp only [Cell.result, idealCell, he, Bool.false_eq_true, if_false, h1, Spec.alone, Out.asFit]
    rw [potQuantile_answer _ _ _ (wpotProb_steady _ _ _ _ _ _)]
  case weightedPotTailMeanProb s' =>
    obtain rfl : s' = sd := by simpa [sameTail] using hsame
    obtain ⟨rfl, rfl⟩ : w = true ∧ q = .potProb := by
      cases w
      · cases hnice
      · exact ⟨rfl, by simpa [nice, heavy] using hnice⟩
    have h1 := hrd' (g := weightedPeaksOverThresholdProb s') rfl (hdep (d := weightedPeaksOverThresholdProb s') (by simp [depBases]))
      fun e _ hf hk => prov_potProb hf hk
    simp only [key] at h1
    have h2 := hrd' (g := weightedPotQuantileProb s') rfl (hdep (d := weightedPotQuantileProb s') (by simp [depBases]))
      fun e he hf hk => prov_quantile hf (hnq e he) hk (by simp)
    simp only [key] at h2
    simp only [Cell.result, idealCell, he, Bool.false_eq_true, if_false, h1, h2, Spec.alone, Out.asFit, Out.asNum]
    rw [potQuantile_answer _ _ _ (wpotProb_steady _ _ _ _ _ _), potTailMean_answer _ _ _ (wpotProb_steady _ _ _ _ _ _)]
    generalize RMachine.answer _ _ () = r
    cases r <;> rfl

include hirr hk hfine hnq hcomp in
/-- Reading a feature, if the accumulators it uses hold what they should. -/
theorem readN_full {as : List (FArgs K)} (hne : as ≠ []) (hpos : Args.Pos w (as.map FArgs.toArgs))
    {env : Env StdF (Cell K)} {p : K} (m : ℕ) : ∀ t ∈ S, stdLib.rank (stdLib.tkey t) < m →
      (∀ e, Below stdLib S t e → Holds stdLib (GoodFull cfg w sd v1 dv dw) as env e) →
      (∀ e, Below stdLib S t e → stdLib.tkey e = abstractTailVariate → dv = false) →
      (∀ e, Below stdLib S t e → stdLib.tkey e = abstractTailWeights → dw = false) →
      Cell.readN cfg env p m (stdLib.tkey t) = full cfg w v0 as p t.base := by
  induction m with
  | zero => intro t _ h; omega
  | succ m ih =>
    intro t ht hm hh hv hw
    obtain ⟨c, h1, h2⟩ := hh t (Or.inl rfl)
    rw [Cell.readN, h1]
    dsimp only
    rw [h2 hpos]
    cases he : elementary t.base with
    | true =>
      rw [idealCell_elem _ he, full, if_pos he]
      have h3 := statOf_eq hirr hfine hcomp hne hpos ht he hh
      have h4 : ∀ (f : StdF) (c : StatCell K), Cell.result cfg env p (Cell.readN cfg env p m) f (.stat c)
          = .num (Cell.statOf cfg env (key f)) := fun f c => by cases f <;> rfl
      rw [h4]
      exact congrArg Out.num h3
    | false =>
      rw [full_other he]
      refine result_alone hirr hk hfine hnq hcomp hne hpos ht he hh (fun e hue => ?_) hv hw
      have htr : ∀ x, Below stdLib S e x → Below stdLib S t x := by
        rintro x (rfl | hx)
        · exact Or.inr hue
        · exact Or.inr (uses_trans hue hx)
      refine ih e (uses_mem hue) ?_ (fun x hx => hh x (htr x hx)) (fun x hx => hv x (htr x hx))
        fun x hx => hw x (htr x hx)
      have := uses_rank stdLib_ok hue
      omega

include hirr hk hfine hnq hcomp in
theorem read_full {as : List (FArgs K)} (hne : as ≠ []) (hpos : Args.Pos w (as.map FArgs.toArgs))
    {env : Env StdF (Cell K)} {p : K} {t : Tag StdF} (ht : t ∈ S)
    (hh : ∀ e, Below stdLib S t e → Holds stdLib (GoodFull cfg w sd v1 dv dw) as env e)
    (hv : ∀ e, Below stdLib S t e → stdLib.tkey e = abstractTailVariate → dv = false)
    (hw : ∀ e, Below stdLib S t e → stdLib.tkey e = abstractTailWeights → dw = false) :
    Cell.read cfg env p (stdLib.tkey t) = full cfg w v0 as p t.base :=
  readN_full hirr hk hfine hnq hcomp hne hpos _ t ht (Nat.lt_succ_self _) hh hv hw

end read

end Acc
