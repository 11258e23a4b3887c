import Verif.Proofs.FullRuns
import Verif.Proofs.XSet
import Verif.Proofs.StatSet
import Verif.Spec.FullSets

/-!
# All statistics in one set: what every accumulator holds
-/

set_option linter.unusedSectionVars false

namespace Acc

open StdF

namespace StdF

/-- All tails of the set are on the side `sd`, all tail variates are the covariate `v1`. -/
def sameTail (sd : Side) (v1 : ℕ) : StdF → Bool
  | StdF.tail s | tailWeights s | tailQuantile s | weightedTailQuantile s | coherentTailMean s | nonCoherentTailMean s
  | nonCoherentWeightedTailMean s | peaksOverThreshold s | peaksOverThresholdProb s | weightedPeaksOverThreshold s
  | weightedPeaksOverThresholdProb s | potQuantile s | potQuantileProb s | weightedPotQuantile s
  | weightedPotQuantileProb s | potTailMean s | potTailMeanProb s | weightedPotTailMean s
  | weightedPotTailMeanProb s => decide (s = sd)
  | tailVariate v s | absoluteTailVariateMeans s v | relativeTailVariateMeans s v
  | absoluteWeightedTailVariateMeans s v | relativeWeightedTailVariateMeans s v => decide (s = sd) && decide (v = v1)
  | _ => true

/-- Features that can be combined: those of `nice`, with one covariate summed (`v0`), one side of the tail and one
covariate in the tail. -/
def fine (w : Bool) (q : QFamily) (sd : Side) (v0 v1 : ℕ) (f : StdF) : Bool :=
  nice w q f && (!elementary f || basic w v0 f) && sameTail sd v1 f

section fine
variable {w : Bool} {q : QFamily} {sd : Side} {v0 v1 : ℕ}

theorem fine_nice {f : StdF} (h : fine w q sd v0 v1 f = true) : nice w q f = true := by
  simp only [fine, Bool.and_eq_true] at h
  exact h.1.1

theorem fine_basic {f : StdF} (h : fine w q sd v0 v1 f = true) (he : elementary f = true) : basic w v0 f = true := by
  simp only [fine, he, Bool.not_true, Bool.false_or, Bool.and_eq_true] at h
  exact h.1.2

theorem fine_same {f : StdF} (h : fine w q sd v0 v1 f = true) : sameTail sd v1 f = true := by
  simp only [fine, Bool.and_eq_true] at h
  exact h.2

theorem sameTail_weighted (d : StdF) : sameTail sd v1 (weighted d) = sameTail sd v1 d := by cases d <;> rfl

theorem sameTail_depBases (f : StdF) (h : sameTail sd v1 f = true) : ∀ d ∈ depBases f, sameTail sd v1 d = true := by
  rw [← List.all_eq_true]
  cases f <;> first | rfl | (revert h; simp +contextual [sameTail, depBases])

theorem sameTail_deps (w : Bool) (f : StdF) (h : sameTail sd v1 f = true) :
    ∀ d ∈ depBases f, sameTail sd v1 (if w then weighted d else d) = true := by
  intro d hd
  have := sameTail_depBases f h d hd
  cases w
  · exact this
  · exact (sameTail_weighted d).trans this

theorem elementary_deps (f : StdF) (h : elementary f = false) (hn : nice w q f = true) :
    ∀ d ∈ depBases f, elementary d = true → basic w v0 (if w then weighted d else d) = true := by
  cases w <;> cases f <;> first | (cases h; done) | (cases hn; done) | simp_all [depBases, weighted, basic, elementary]

theorem elementary_weighted (d : StdF) : elementary (weighted d) = elementary d := by cases d <;> rfl

theorem fine_deps {f : StdF} (h : fine w q sd v0 v1 f = true) :
    ∀ d ∈ depBases f, fine w q sd v0 v1 (if w then weighted d else d) = true := by
  intro d hd
  have h1 := nice_deps w q f
  rw [fine_nice h] at h1
  simp only [Bool.not_true, Bool.false_or, List.all_eq_true] at h1
  have h2 := sameTail_deps w f (fine_same h) d hd
  have h3 : elementary d = true → basic w v0 (if w then weighted d else d) = true := by
    cases he : elementary f with
    | true => exact fun _ => basic_deps w v0 f (fine_basic h he) d hd
    | false => exact elementary_deps f he (fine_nice h) d hd
  have he : elementary (if w then weighted d else d) = elementary d := by
    cases w
    · rfl
    · exact elementary_weighted d
  unfold fine
  rw [h1 d hd, h2, he]
  cases hd' : elementary d with
  | true => simp [h3 hd']
  | false => rfl

theorem fine_elem {f : StdF} (h : fine w q sd v0 v1 f = true) : elementary f = elemKey (key f) := by
  have := fine_nice h
  cases f <;> first | rfl | (cases w <;> cases this)

theorem elem_of_key {f : StdF} (h : fine w q sd v0 v1 f = true) (hk : elemKey (key f) = true) : elementary f = true := by
  rw [fine_elem h, hk]

/-- Which feature provides an abstract one. -/
theorem prov_tail {g : StdF} (h : fine w q sd v0 v1 g = true) (hk : key g = abstractTail) : g = StdF.tail sd := by
  have h1 := fine_nice h
  have h2 := fine_same h
  cases g <;> first | (cases hk; done) | (cases w <;> cases h1; done) | simpa [sameTail] using h2

theorem prov_variate {g : StdF} (h : fine w q sd v0 v1 g = true) (hk : key g = abstractTailVariate) :
    g = tailVariate v1 sd := by
  have h1 := fine_nice h
  have h2 := fine_same h
  cases g <;> first | (cases hk; done) | (cases w <;> cases h1; done) | (simp [sameTail] at h2; simp [h2])

theorem prov_weights {g : StdF} (h : fine w q sd v0 v1 g = true) (hk : key g = abstractTailWeights) :
    g = tailWeights sd := by
  have h1 := fine_nice h
  have h2 := fine_same h
  cases g <;> first | (cases hk; done) | (cases w <;> cases h1; done) | simpa [sameTail] using h2

theorem prov_nctm {g : StdF} (h : fine w q sd v0 v1 g = true) (hk : key g = abstractNonCoherentTailMean) :
    g = if w then nonCoherentWeightedTailMean sd else nonCoherentTailMean sd := by
  have h1 := fine_nice h
  have h2 := fine_same h
  cases g <;> first | (cases hk; done) | (cases w <;> first | (cases h1; done) | simpa [sameTail] using h2)

theorem prov_window {g : StdF} (hk : key g = rollingWindowPlus1) : g = rollingWindowPlus1 := by
  cases g <;> first | rfl | cases hk

theorem prov_rollMean {g : StdF} (h : fine w q sd v0 v1 g = true) (hk : key g = rollingMean) :
    g = rollingMean ∨ g = immediateRollingMean := by
  have h1 := fine_nice h
  cases g <;> first | (cases hk; done) | (cases w <;> cases h1; done) | simp

theorem prov_rollMoment {g : StdF} {m : ℕ} (hk : key g = rollingMoment m) : g = rollingMoment m := by
  cases g <;> first | (cases hk; done) | exact hk

theorem prov_density {g : StdF} (h : fine w q sd v0 v1 g = true) (hk : key g = density) :
    g = if w then weightedDensity else density := by
  have h1 := fine_nice h
  cases g <;> first | (cases hk; done) | (cases w <;> first | rfl | cases h1)

theorem prov_cumul {g : StdF} (h : fine w q sd v0 v1 g = true) (hk : key g = pSquareCumul) :
    g = if w then weightedPSquareCumul else pSquareCumul := by
  have h1 := fine_nice h
  cases g <;> first | (cases hk; done) | (cases w <;> first | rfl | cases h1)

theorem prov_epsq {g : StdF} (h : fine w q sd v0 v1 g = true) (hk : key g = extendedPSquare) :
    g = if w then weightedExtendedPSquare else extendedPSquare := by
  have h1 := fine_nice h
  cases g <;> first | (cases hk; done) | (cases w <;> first | rfl | cases h1)

theorem prov_forMedian {g : StdF} (hk : key g = pSquareQuantileForMedian) : g = pSquareQuantileForMedian := by
  cases g <;> first | rfl | cases hk

theorem prov_wforMedian {g : StdF} (hk : key g = weightedPSquareQuantileForMedian) :
    g = weightedPSquareQuantileForMedian := by
  cases g <;> first | rfl | cases hk

theorem prov_pot {g : StdF} (h : fine w .pot sd v0 v1 g = true) (hk : key g = abstractPeaksOverThreshold) :
    g = if w then weightedPeaksOverThreshold sd else peaksOverThreshold sd := by
  have h1 := fine_nice h
  have h2 := fine_same h
  cases g <;> first | (cases hk; done) | (cases w <;> first | (cases h1; done) | simpa [sameTail] using h2)

theorem prov_potProb {g : StdF} (h : fine w .potProb sd v0 v1 g = true) (hk : key g = abstractPeaksOverThreshold) :
    g = if w then weightedPeaksOverThresholdProb sd else peaksOverThresholdProb sd := by
  have h1 := fine_nice h
  have h2 := fine_same h
  cases g <;> first | (cases hk; done) | (cases w <;> first | (cases h1; done) | simpa [sameTail] using h2)

theorem prov_quantile {g : StdF} (h : fine w q sd v0 v1 g = true) (hne : g ≠ quantile) (hk : key g = quantile)
    (hq : q ≠ .pSquare) :
    g = match q, w with
      | .tail, false => tailQuantile sd
      | .tail, true => weightedTailQuantile sd
      | .pot, false => potQuantile sd
      | .pot, true => weightedPotQuantile sd
      | .potProb, false => potQuantileProb sd
      | .potProb, true => weightedPotQuantileProb sd
      | .pSquare, _ => quantile := by
  have h1 := fine_nice h
  have h2 := fine_same h
  cases g <;> first
    | (cases hk; done)
    | (exact absurd rfl hne)
    | (cases w <;> cases q <;> first | (cases h1; done) | (exact absurd rfl hq) | simpa [sameTail] using h2)

end fine

end StdF

section ideal
variable {K : Type} [Field K] [LinearOrder K] [FloorRing K]

/-- The cache of the tail with both the covariate and the weights. -/
def tailBoth (cfg : Cfg K) (sd : Side) (v1 : ℕ) (as : List (FArgs K)) : Res (TailSt K (List K × K)) :=
  tailRun cfg.heap sd cfg.tailCache 0 ([], 0) (onlyPushes (Spec.withBoth v1 as))

/-- What the accumulator of feature `f` holds after the pushes `as`; `dv`, `dw` tell whether the tail variate and the
tail weights are droppable. -/
def idealCell (cfg : Cfg K) (sd : Side) (v1 : ℕ) (dv dw : Bool) (as : List (FArgs K)) : StdF → Cell K
  | rollingWindowPlus1 => .window (rollRun .immediate cfg.window 0 (Spec.samples as)).b
  | rollingSum => .roll (rollRun .immediate cfg.window 0 (Spec.samples as)).sum
  | rollingMoment m => .roll ((rollRun .immediate cfg.window 0 (Spec.samples as)).moment m)
  | immediateRollingMean | rollingMean => .roll (rollRun .immediate cfg.window 0 (Spec.samples as)).imean
  | rollingVariance | immediateRollingVariance => .rollVar (rollRun .immediate cfg.window 0 (Spec.samples as)).var
  | density => .dens ((densitySet cfg.lo cfg.hi cfg.densCache cfg.numBins 0).exec
      (densitySet cfg.lo cfg.hi cfg.densCache cfg.numBins 0).init (onlyPushes (Spec.samples as)))
  | weightedDensity => .wdens ((wdensitySet cfg.lo cfg.hi cfg.densCache cfg.numBins 0).exec
      (wdensitySet cfg.lo cfg.hi cfg.densCache cfg.numBins 0).init (onlyPushes (Spec.weightedSamples as)))
  | pSquareQuantile => .psq ((psqQuantileSet cfg.prob).exec (psqQuantileSet cfg.prob).init
      (onlyPushes (Spec.samples as)))
  | pSquareQuantileForMedian => .psq (medianSet.exec medianSet.init (onlyPushes (Spec.samples as)))
  | weightedPSquareQuantile => .wpsq ((wpsqQuantileSet cfg.prob).exec (wpsqQuantileSet cfg.prob).init
      (onlyPushes (Spec.weightedSamples as)))
  | weightedPSquareQuantileForMedian => .wpsq (wmedianSet.exec wmedianSet.init (onlyPushes (Spec.weightedSamples as)))
  | pSquareCumul => .cumul ((psqCumulSet cfg.cells).exec (psqCumulSet cfg.cells).init (onlyPushes (Spec.samples as)))
  | weightedPSquareCumul => .wcumul ((wpsqCumulSet cfg.cells).exec (wpsqCumulSet cfg.cells).init
      (onlyPushes (Spec.weightedSamples as)))
  | extendedPSquare => .psq ((epsqSet cfg.probs).exec (epsqSet cfg.probs).init (onlyPushes (Spec.samples as)))
  | weightedExtendedPSquare => .wpsq ((wepsqSet cfg.probs).exec (wepsqSet cfg.probs).init
      (onlyPushes (Spec.weightedSamples as)))
  | withDensityMedian | withDensityWeightedMedian => .densMedian 0 true 0
  | withCumulMedian | withCumulWeightedMedian => .cumulMedian true 0
  | StdF.tail _ => .tail ((tailBoth cfg sd v1 as).bind fun s => .val s.own)
  | tailVariate _ _ => .variates (if dv then .val (List.replicate cfg.tailCache [])
      else (tailBoth cfg sd v1 as).bind fun s => .val (s.variates.map Prod.fst))
  | tailWeights _ => .weights (if dw then .val (List.replicate cfg.tailCache 0)
      else (tailBoth cfg sd v1 as).bind fun s => .val (s.variates.map Prod.snd))
  | peaksOverThreshold s => .pot ((Spec.samples as).foldl (potPush s) (potInit s cfg.potThr))
  | weightedPeaksOverThreshold s => .wpot ((Spec.weightedSamples as).foldl (wpotPush s) (wpotInit s cfg.potThr))
  | peaksOverThresholdProb _ | weightedPeaksOverThresholdProb _ =>
    .potProb (.val 0) (.val 0) cfg.potProb (.val 0, .val 0, .val 0) true
  | f => if elementary f then .stat (ideal cfg.lo cfg.hi (as.map FArgs.toArgs) f) else .none

/-- What an accumulator should hold, for streams with positive weights. -/
def GoodFull (cfg : Cfg K) (w : Bool) (sd : Side) (v1 : ℕ) (dv dw : Bool) (f : StdF) (as : List (FArgs K)) (c : Cell K) :
    Prop :=
  Args.Pos w (as.map FArgs.toArgs) → c = idealCell cfg sd v1 dv dw as f

theorem samples_snoc (as : List (FArgs K)) (a : FArgs K) : Spec.samples (as ++ [a]) = Spec.samples as ++ [a.x] := by
  simp [Spec.samples]
theorem weightedSamples_snoc (as : List (FArgs K)) (a : FArgs K) :
    Spec.weightedSamples (as ++ [a]) = Spec.weightedSamples as ++ [(a.x, a.w)] := by
  simp [Spec.weightedSamples]
theorem withBoth_snoc (v : ℕ) (as : List (FArgs K)) (a : FArgs K) :
    Spec.withBoth v (as ++ [a]) = Spec.withBoth v as ++ [(a.x, (a.vec v, a.w))] := by
  simp [Spec.withBoth]

theorem rollRun_snoc (kind : RollMeanKind) (N : ℕ) (x0 : K) (xs : List K) (x : K) :
    rollRun kind N x0 (xs ++ [x]) = (rollRun kind N x0 xs).push kind x := by
  simp [rollRun]

/-- The tail is never in an abnormal state. -/
theorem tailBoth_val (cfg : Cfg K) (hk : 1 ≤ cfg.tailCache) (sd : Side) (v1 : ℕ) (as : List (FArgs K)) :
    ∃ s, tailBoth cfg sd v1 as = .val s := by
  obtain ⟨s, -, h, -⟩ := tailRun_inv cfg.heap sd hk (0 : K) (([], 0) : List K × K) (onlyPushes (Spec.withBoth v1 as))
  exact ⟨s, h⟩

theorem tailBoth_snoc (cfg : Cfg K) (sd : Side) (v1 : ℕ) (as : List (FArgs K)) (a : FArgs K) :
    tailBoth cfg sd v1 (as ++ [a]) = (tailBoth cfg sd v1 as).bind fun s => tailPush cfg.heap sd s a.x (a.vec v1, a.w) := by
  unfold tailBoth
  rw [withBoth_snoc, tailRun_snoc]

/-- At the beginning. -/
theorem full_init [IsStrictOrderedRing K] (cfg : Cfg K) {w : Bool} {sd : Side} {v1 : ℕ} {dv dw : Bool} (f : StdF) :
    GoodFull cfg w sd v1 dv dw f [] ((fullImpl cfg).init f) := by
  intro _
  show Cell.start cfg f = _
  cases he : elementary f with
  | true =>
    have h1 : Cell.start cfg f = .stat ((statImpl cfg.irr cfg.lo cfg.hi).init f) := by
      cases f <;> first | rfl | cases he
    have h2 : idealCell cfg sd v1 dv dw [] f = .stat (ideal cfg.lo cfg.hi [] f) := by
      cases f <;> first | rfl | cases he
    rw [h1, h2, stat_init (w := false) (irr := cfg.irr) f (by intro h; cases h)]
  | false =>
    cases f <;> first
      | (cases he; done)
      | rfl
      | skip
    all_goals
      simp only [Cell.start, idealCell]
      first
        | rfl
        | (cases dv <;> cases dw <;> simp [tailBoth, tailRun, tailExec, onlyPushes, Spec.withBoth, tailInit, Res.bind])

end ideal

section read
variable {K : Type} [Field K] [LinearOrder K] [IsStrictOrderedRing K] [FloorRing K]
variable {cfg : Cfg K} (hirr : IrrOk cfg.irr) (hk : 1 ≤ cfg.tailCache)
variable {w : Bool} {q : QFamily} {sd : Side} {v0 v1 : ℕ} {dv dw : Bool} {S : List (Tag StdF)}
  (hfine : ∀ t ∈ S, fine w q sd v0 v1 t.base = true) (hcomp : Complete stdLib S)

include hfine in
theorem fine_elemBasic : ∀ t ∈ S, elemKey (stdLib.tkey t) = true → basic w v0 t.base = true :=
  fun t ht h => fine_basic (hfine t ht) (elem_of_key (hfine t ht) h)

/-- An elementary statistic of the set. -/
theorem stat_holds {as : List (FArgs K)} {env : Env StdF (Cell K)} {t : Tag StdF} (he : elementary t.base = true)
    (h : Holds stdLib (GoodFull cfg w sd v1 dv dw) as env t) :
    Holds stdLib (GoodStat w cfg.lo cfg.hi) (as.map FArgs.toArgs) (Cell.statEnv env) t := by
  obtain ⟨c, h1, h2⟩ := h
  have h3 : idealCell cfg sd v1 dv dw as t.base = .stat (ideal cfg.lo cfg.hi (as.map FArgs.toArgs) t.base) := by
    revert he
    cases t.base <;> first | exact fun _ => rfl | (intro h; cases h)
  have h4 : ∀ d, env (stdLib.tkey t) = some (t.base, d) → Cell.statEnv env (stdLib.tkey t)
      = some (t.base, match d with | .stat c => c | _ => .none) := by
    intro d hd
    unfold Cell.statEnv
    rw [hd]
    cases d <;> rfl
  refine ⟨_, h4 c h1, fun hpos => ?_⟩
  rw [h2 hpos, h3]

include hfine in
/-- An elementary statistic uses only such. -/
theorem uses_elem {t e : Tag StdF} (h : Spec.Uses stdLib S t e) :
    t ∈ S → elementary t.base = true → elementary e.base = true := by
  have key1 : ∀ {t e d : Tag StdF}, t ∈ S → e ∈ S → elementary t.base = true → d ∈ stdLib.deps t.base →
      stdLib.tkey d = stdLib.tkey e → elementary e.base = true := by
    intro t e d ht he hte hd hk
    obtain ⟨d0, h0, rfl⟩ := List.mem_map.1 hd
    have := basic_depKey (fine_basic (hfine t ht) hte) h0
    refine elem_of_key (hfine e he) ?_
    have hk' : key d0 = key e.base := hk
    rw [← hk']
    exact this
  induction h with
  | direct he hd hk => exact fun ht hte => key1 ht he hte hd hk
  | step ha hd hk _ ih => exact fun ht hte => ih ha (key1 ht ha hte hd hk)

include hirr hfine hcomp in
/-- Reading an elementary statistic. -/
theorem statOf_eq {as : List (FArgs K)} (hne : as ≠ []) (hpos : Args.Pos w (as.map FArgs.toArgs))
    {env : Env StdF (Cell K)} {t : Tag StdF} (ht : t ∈ S) (he : elementary t.base = true)
    (hh : ∀ e, Below stdLib S t e → Holds stdLib (GoodFull cfg w sd v1 dv dw) as env e) :
    Cell.statOf cfg env (stdLib.tkey t)
      = stat cfg.irr w v0 cfg.lo cfg.hi (as.map FArgs.toArgs) (stdLib.tkey t) := by
  have hek : ∀ e ∈ S, elementary e.base = true → elemKey (stdLib.tkey e) = true := by
    intro e heS h
    have := fine_elem (hfine e heS)
    rw [h] at this
    exact this.symm
  refine read_ideal hirr (fine_elemBasic hfine) hcomp (by simpa using hne) hpos ht (hek t ht he) fun e hb => ?_
  refine stat_holds ?_ (hh e hb)
  rcases hb with rfl | hb
  · exact he
  · exact uses_elem hfine hb ht he

include hfine hcomp in
theorem fullCount_eq {as : List (FArgs K)} (hpos : Args.Pos w (as.map FArgs.toArgs)) {env : Env StdF (Cell K)}
    {t : Tag StdF} (ht : t ∈ S) (hh : ∀ e, Spec.Uses stdLib S t e → Holds stdLib (GoodFull cfg w sd v1 dv dw) as env e)
    (hc : count ∈ depBases t.base) : Cell.countOf env = as.length := by
  obtain ⟨e, he, hue, hk⟩ := provider hcomp ht hc
  have hb := key_count (fine_elemBasic hfine e he (by rw [hk]; rfl)) hk
  obtain ⟨s, h1, h2⟩ := stat_holds (by rw [hb]; rfl) (hh e hue)
  rw [hk, hb, h2 hpos, hb] at h1
  simp only [key, ideal] at h1
  simp [Cell.countOf, StatCell.countOf, h1]

include hirr hfine hcomp in
/-- Reading an elementary statistic that an accumulator uses. -/
theorem usedStat_eq {as : List (FArgs K)} (hne : as ≠ []) (hpos : Args.Pos w (as.map FArgs.toArgs))
    {env : Env StdF (Cell K)} {t e : Tag StdF} (hue : Spec.Uses stdLib S t e) {k : StdF} (hek : stdLib.tkey e = k)
    (hk : elemKey k = true)
    (hh : ∀ e, Spec.Uses stdLib S t e → Holds stdLib (GoodFull cfg w sd v1 dv dw) as env e) :
    Cell.statOf cfg env k = stat cfg.irr w v0 cfg.lo cfg.hi (as.map FArgs.toArgs) k := by
  subst hek
  have heS := uses_mem hue
  refine statOf_eq hirr hfine hcomp hne hpos heS (elem_of_key (hfine e heS) hk) fun x hx => hh x ?_
  rcases hx with rfl | hx
  · exact hue
  · exact uses_trans hue hx

/-- The window. -/
theorem window_eq {as : List (FArgs K)} (hpos : Args.Pos w (as.map FArgs.toArgs)) {env : Env StdF (Cell K)}
    {e : Tag StdF} (hek : stdLib.tkey e = rollingWindowPlus1)
    (hh : Holds stdLib (GoodFull cfg w sd v1 dv dw) as env e) :
    Cell.windowOf env = some (rollRun .immediate cfg.window 0 (Spec.samples as)).b := by
  obtain ⟨c, h1, h2⟩ := hh
  rw [h2 hpos, prov_window hek, hek] at h1
  simp only [Cell.windowOf, h1, idealCell]

/-- The tail. -/
theorem tailOf_eq {as : List (FArgs K)} (hpos : Args.Pos w (as.map FArgs.toArgs)) {env : Env StdF (Cell K)}
    {e : Tag StdF} (hef : fine w q sd v0 v1 e.base = true) (hek : stdLib.tkey e = abstractTail)
    (hh : Holds stdLib (GoodFull cfg w sd v1 dv dw) as env e) :
    Cell.tailOf env = (tailBoth cfg sd v1 as).bind fun s => .val s.own := by
  obtain ⟨c, h1, h2⟩ := hh
  rw [h2 hpos, prov_tail hef hek, hek] at h1
  simp only [Cell.tailOf, h1, idealCell]

include hfine hcomp in
/-- The provider of a dependency, and what it holds. -/
theorem used {t : Tag StdF} (ht : t ∈ S) {d : StdF} (hd : d ∈ depBases t.base) :
    ∃ e ∈ S, Spec.Uses stdLib S t e ∧ stdLib.tkey e = key d ∧ fine w q sd v0 v1 e.base = true := by
  obtain ⟨e, he, hue, hk⟩ := provider hcomp ht hd
  exact ⟨e, he, hue, hk, hfine e he⟩

theorem args_snoc (as : List (FArgs K)) (a : FArgs K) :
    (as ++ [a]).map FArgs.toArgs = as.map FArgs.toArgs ++ [a.toArgs] := by simp

theorem map_xs (as : List (FArgs K)) : Args.xs (as.map FArgs.toArgs) = Spec.samples as := by
  simp [Args.xs, Spec.samples, Function.comp_def]
theorem map_ws (as : List (FArgs K)) : Args.ws (as.map FArgs.toArgs) = (Spec.weightedSamples as).map Prod.snd := by
  simp [Args.ws, Spec.weightedSamples, Function.comp_def]
theorem samples_eq (as : List (FArgs K)) : Spec.samples as = (Spec.weightedSamples as).map Prod.fst := by
  simp [Spec.samples, Spec.weightedSamples, Function.comp_def]
theorem length_samples (as : List (FArgs K)) : (Spec.samples as).length = as.length := by simp [Spec.samples]
theorem length_weightedSamples (as : List (FArgs K)) : (Spec.weightedSamples as).length = as.length := by
  simp [Spec.weightedSamples]

end read

end Acc
