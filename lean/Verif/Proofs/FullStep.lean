import Verif.Proofs.FullSet

/-!
# All statistics in one set: every update does its part
-/

set_option linter.unusedSectionVars false

namespace Acc

open StdF

section step
variable {K : Type} [Field K] [LinearOrder K] [IsStrictOrderedRing K] [FloorRing K]
variable {cfg : Cfg K} (hirr : IrrOk cfg.irr) (hk : 1 ≤ cfg.tailCache)
variable {w : Bool} {q : QFamily} {sd : Side} {v0 v1 : ℕ} {dv dw : Bool} {S : List (Tag StdF)}
  (hfine : ∀ t ∈ S, fine w q sd v0 v1 t.base = true) (hcomp : Complete stdLib S)

/-- Does the tail write into the accumulators of this feature? -/
def StdF.cached : StdF → Bool
  | tailVariate _ _ | tailWeights _ => true
  | _ => false

/-- Nobody writes into the others, nor into droppable ones. -/
theorem full_quiet {t : Tag StdF} (h : t.drop = true ∨ cached t.base = false) : Quiet (fullImpl cfg) t := by
  intro f env a s
  obtain ⟨b, d⟩ := t
  show Cell.write cfg f env a ⟨b, d⟩ s = s
  rcases h with h | h
  · obtain rfl : d = true := h
    cases f <;> first | rfl | (cases b <;> rfl)
  · have h' : cached b = false := h
    cases b <;> first
      | (cases h'; done)
      | (cases f <;> rfl)

/-- An elementary statistic is updated as in `Model/StatSet`. -/
theorem step_elem (env : Env StdF (Cell K)) (a : FArgs K) {f : StdF} (h : elementary f = true)
    (own : Option (StdF × Cell K)) :
    Cell.step cfg env a f own = .stat ((statImpl cfg.irr cfg.lo cfg.hi).upd f (Cell.statEnv env) a.toArgs) := by
  cases f <;> first | rfl | cases h

theorem idealCell_elem (as : List (FArgs K)) {f : StdF} (h : elementary f = true) :
    idealCell cfg sd v1 dv dw as f = .stat (ideal cfg.lo cfg.hi (as.map FArgs.toArgs) f) := by
  cases f <;> first | rfl | cases h

include hirr hfine hcomp in
theorem stepOk_elem {t : Tag StdF} (ht : t ∈ S) (he : elementary t.base = true) :
    StepOk stdLib (fullImpl cfg).toImpl S (GoodFull cfg w sd v1 dv dw) t := by
  intro as a env hown huse hpos
  have hek : elemKey (stdLib.tkey t) = true := by
    have := fine_elem (hfine t ht)
    rw [he] at this
    exact this.symm
  have := stat_stepOk (lo := cfg.lo) (hi := cfg.hi) hirr (fine_elemBasic hfine) hcomp t ht hek
    (as.map FArgs.toArgs) a.toArgs (Cell.statEnv env) (stat_holds he hown) (fun e hue => by
      have := stat_holds (uses_elem hfine hue ht he) (huse e hue)
      rwa [args_snoc] at this)
  show Cell.step cfg env a t.base _ = _
  rw [step_elem env a he, idealCell_elem _ he, args_snoc]
  rw [args_snoc] at hpos
  exact congrArg Cell.stat (this hpos)

theorem withWindow_eq {env : Env StdF (Cell K)} {b : Ring K} (h : Cell.windowOf env = some b) (g : Ring K → Res K) :
    Cell.withWindow env g = g b := by
  unfold Cell.withWindow
  rw [h]

/-- Two tags providing the mean of the window hold the same. -/
theorem rollMean_read {as : List (FArgs K)} (hpos : Args.Pos w (as.map FArgs.toArgs)) {env : Env StdF (Cell K)}
    {e : Tag StdF} (hef : fine w q sd v0 v1 e.base = true) (hek : stdLib.tkey e = rollingMean)
    (hh : Holds stdLib (GoodFull cfg w sd v1 dv dw) as env e) (p : K) (m : ℕ) :
    Cell.readN cfg env p (m + 1) rollingMean = .num (rollRun .immediate cfg.window 0 (Spec.samples as)).imean := by
  obtain ⟨c, h1, h2⟩ := hh
  rw [h2 hpos, hek] at h1
  unfold Cell.readN
  rw [h1]
  rcases prov_rollMean hef hek with h | h <;> rw [h] <;> rfl

include hirr hk hfine hcomp in
theorem stepOk_other {t : Tag StdF} (ht : t ∈ S) (he : elementary t.base = false)
    (hq : cached t.base = false) :
    StepOk stdLib (fullImpl cfg).toImpl S (GoodFull cfg w sd v1 dv dw) t := by
  intro as a env hown huse hpos
  obtain ⟨c, hc1, hc2⟩ := hown
  have hpos0 : Args.Pos w (as.map FArgs.toArgs) := by
    rw [args_snoc] at hpos
    exact hpos.init
  rw [hc2 hpos0] at hc1
  have hn : count ∈ depBases t.base → Cell.countOf env = as.length + 1 := by
    intro h
    have := fullCount_eq hfine hcomp hpos ht huse h
    simpa using this
  have hst : ∀ d ∈ depBases t.base, elemKey (key d) = true →
      Cell.statOf cfg env (key d) = stat cfg.irr w v0 cfg.lo cfg.hi ((as ++ [a]).map FArgs.toArgs) (key d) := by
    intro d hd hkd
    obtain ⟨e, heS, hue, hek⟩ := provider hcomp ht hd
    exact usedStat_eq hirr hfine hcomp (by simp) hpos hue hek hkd huse
  have hmin : StdF.min ∈ depBases t.base → Cell.statOf cfg env .min
      = .val (minRun ltb cfg.hi (Spec.samples as ++ [a.x])) := by
    intro h
    have := hst _ h rfl
    rw [← samples_snoc, ← map_xs]
    exact this
  have hmax : StdF.max ∈ depBases t.base → Cell.statOf cfg env .max
      = .val (maxRun ltb cfg.lo (Spec.samples as ++ [a.x])) := by
    intro h
    have := hst _ h rfl
    rw [← samples_snoc, ← map_xs]
    exact this
  have hsw : sumOfWeights ∈ depBases t.base → Cell.statOf cfg env .sumOfWeights
      = .val ((Spec.weightedSamples as ++ [(a.x, a.w)]).map Prod.snd).sum := by
    intro h
    have := hst _ h rfl
    rw [← weightedSamples_snoc, ← map_ws]
    exact this
  have hwin : rollingWindowPlus1 ∈ depBases t.base → Cell.windowOf env
      = some (windowPush (rollRun .immediate cfg.window 0 (Spec.samples as)).b a.x) := by
    intro h
    obtain ⟨e, heS, hue, hek⟩ := provider hcomp ht h
    rw [window_eq hpos hek (huse e hue), samples_snoc, rollRun_snoc]
    rfl
  have hmean : immediateRollingMean ∈ depBases t.base → Cell.read cfg env 0 rollingMean
      = .num (rollRun .immediate cfg.window 0 (Spec.samples as ++ [a.x])).imean := by
    intro h
    obtain ⟨e, heS, hue, hek⟩ := provider hcomp ht h
    rw [← samples_snoc]
    exact rollMean_read hpos (hfine e heS) hek (huse e hue) 0 _
  have hwx : (Spec.weightedSamples as ++ [(a.x, a.w)]).map Prod.fst = Spec.samples as ++ [a.x] := by
    rw [← weightedSamples_snoc, ← samples_eq, samples_snoc]
  have hfs := fine_same (hfine t ht)
  show Cell.step cfg env a t.base (env (stdLib.tkey t)) = _
  rw [hc1]
  clear hc1 hc2 huse hst
  revert he hq hn hmin hmax hsw hwin hmean hfs
  generalize t.base = f
  intro he hq hn hmin hmax hsw hwin hmean hfs
  cases f <;> first
    | (cases he; done)
    | (cases hq; done)
    | rfl
    | skip
  case density =>
    simp only [Cell.step, idealCell, hn (by simp [depBases]), hmin (by simp [depBases]), hmax (by simp [depBases]),
      samples_snoc, density_snoc, length_samples]
    simp [Res.bind]
  case weightedDensity =>
    simp only [Cell.step, idealCell, hn (by simp [depBases]), hmin (by simp [depBases]), hmax (by simp [depBases]),
      hsw (by simp [depBases]), weightedSamples_snoc, wdensity_snoc, length_weightedSamples, hwx]
    simp [Res.bind]
  case pSquareQuantile =>
    simp only [Cell.step, idealCell, hn (by simp [depBases]), samples_snoc]
    rw [psq_snoc (psqQuantileSet cfg.prob) (psqQuantileIncr cfg.prob) rfl fun _ _ => rfl, length_samples]
    simp
  case pSquareQuantileForMedian =>
    simp only [Cell.step, idealCell, hn (by simp [depBases]), samples_snoc]
    rw [psq_snoc medianSet (psqQuantileIncr (1 / 2)) rfl fun _ _ => rfl, length_samples]
    simp
  case extendedPSquare =>
    simp only [Cell.step, idealCell, hn (by simp [depBases]), samples_snoc]
    rw [psq_snoc (epsqSet cfg.probs) (epsqIncr cfg.probs) rfl fun _ _ => rfl, length_samples]
    simp
  case pSquareCumul =>
    simp only [Cell.step, idealCell, hn (by simp [depBases]), samples_snoc, cumul_snoc, length_samples]
    simp
  case weightedPSquareQuantile =>
    simp only [Cell.step, idealCell, hn (by simp [depBases]), hsw (by simp [depBases]), weightedSamples_snoc]
    rw [wpsq_snoc (wpsqQuantileSet cfg.prob) 5 5 (fun n0 W => .val (wpsqQuantileDes cfg.prob n0 W)) ⟨rfl, rfl⟩
      fun _ _ => rfl, length_weightedSamples]
    simp [Res.bind]
  case weightedPSquareQuantileForMedian =>
    simp only [Cell.step, idealCell, hn (by simp [depBases]), hsw (by simp [depBases]), weightedSamples_snoc]
    rw [wpsq_snoc wmedianSet 5 5 (fun n0 W => .val (wpsqQuantileDes (1 / 2) n0 W)) ⟨rfl, rfl⟩
      fun _ _ => rfl, length_weightedSamples]
    simp [Res.bind]
  case weightedExtendedPSquare =>
    simp only [Cell.step, idealCell, hn (by simp [depBases]), hsw (by simp [depBases]), weightedSamples_snoc]
    rw [wpsq_snoc (wepsqSet cfg.probs) (2 * cfg.probs.length + 3) (2 * cfg.probs.length + 3) (wepsqDes cfg.probs)
      ⟨rfl, rfl⟩ fun _ _ => rfl, length_weightedSamples]
    simp [Res.bind]
  case weightedPSquareCumul =>
    simp only [Cell.step, idealCell, hn (by simp [depBases]), hsw (by simp [depBases]), weightedSamples_snoc,
      wcumul_snoc, length_weightedSamples]
    simp [Res.bind]
  case tail s =>
    obtain rfl : s = sd := by simpa [sameTail] using hfs
    obtain ⟨s0, h0⟩ := tailBoth_val cfg hk s v1 as
    obtain ⟨s1, h1⟩ := tailBoth_val cfg hk s v1 (as ++ [a])
    have h2 := tailBoth_snoc cfg s v1 as a
    rw [h0, h1, Res.bind] at h2
    simp only [Cell.step, idealCell, h0, h1, Res.bind]
    rw [tailPush_next cfg.heap s h2.symm]
  case rollingWindowPlus1 =>
    simp only [Cell.step, idealCell, samples_snoc, rollRun_snoc]
    rfl
  case rollingSum =>
    simp only [Cell.step, idealCell, withWindow_eq (hwin (by simp [depBases])), samples_snoc, rollRun_snoc]
    rfl
  case rollingMoment m =>
    simp only [Cell.step, idealCell, withWindow_eq (hwin (by simp [depBases])), samples_snoc, rollRun_snoc]
    rfl
  case rollingMean =>
    simp only [Cell.step, idealCell, withWindow_eq (hwin (by simp [depBases])), samples_snoc, rollRun_snoc]
    rfl
  case immediateRollingMean =>
    simp only [Cell.step, idealCell, withWindow_eq (hwin (by simp [depBases])), samples_snoc, rollRun_snoc]
    rfl
  case rollingVariance =>
    simp only [Cell.step, idealCell, hwin (by simp [depBases]), hmean (by simp [depBases]), samples_snoc, rollRun_snoc]
    rfl
  case immediateRollingVariance =>
    simp only [Cell.step, idealCell, hwin (by simp [depBases]), hmean (by simp [depBases]), samples_snoc, rollRun_snoc]
    rfl
  all_goals
    simp only [Cell.step, idealCell, samples_snoc, weightedSamples_snoc, List.foldl_append, List.foldl_cons,
      List.foldl_nil]

/-- Droppable tail variates and weights keep their initial value. -/
theorem stepOk_dropped {t : Tag StdF} (hq : cached t.base = true)
    (hdv : ∀ v s, t.base = tailVariate v s → dv = true) (hdw : ∀ s, t.base = tailWeights s → dw = true) :
    StepOk stdLib (fullImpl cfg).toImpl S (GoodFull cfg w sd v1 dv dw) t := by
  intro as a env hown huse hpos
  obtain ⟨c, hc1, hc2⟩ := hown
  have hpos0 : Args.Pos w (as.map FArgs.toArgs) := by
    rw [args_snoc] at hpos
    exact hpos.init
  rw [hc2 hpos0] at hc1
  show Cell.step cfg env a t.base (env (stdLib.tkey t)) = _
  rw [hc1]
  clear hc1 hc2 huse
  revert hq hdv hdw
  generalize t.base = f
  intro hq hdv hdw
  cases f <;> first | (cases hq; done) | skip
  case tailVariate v s => simp [Cell.step, idealCell, hdv v s rfl]
  case tailWeights s => simp [Cell.step, idealCell, hdw s rfl]

include hk hfine hcomp in
/-- The others are written to by the tail. -/
theorem stepOk_written {t : Tag StdF} (ht : t ∈ S) (hq : cached t.base = true) (hd : t.drop = false)
    (hdv : ∀ v s, t.base = tailVariate v s → dv = false) (hdw : ∀ s, t.base = tailWeights s → dw = false) :
    StepOkX stdLib (fullImpl cfg) S (GoodFull cfg w sd v1 dv dw) t := by
  have hd1 : StdF.tail sd ∈ depBases t.base := by
    have hs := fine_same (hfine t ht)
    revert hs hq
    generalize t.base = f
    intro hq hs
    cases f <;> first | (cases hq; done) | (simp [sameTail] at hs; simp [depBases, hs])
  obtain ⟨u, huS, huse, huk⟩ := provider hcomp ht hd1
  have hub := prov_tail (hfine u huS) huk
  have hs := fine_same (hfine t ht)
  obtain ⟨b, d⟩ := t
  obtain rfl : d = false := hd
  refine Or.inr ⟨u, ⟨huse, full_quiet (Or.inr (by rw [hub]; rfl)), ?_, ?_⟩, ?_⟩
  · intro f env a s hf
    rw [hub] at hf
    show Cell.write cfg f env a ⟨b, false⟩ s = s
    cases f <;> first | rfl | skip
    rename_i s'
    have hne : sd ≠ s' := fun h => hf (by rw [h])
    cases b <;> first | rfl | skip
    · rename_i v s2
      obtain ⟨rfl, -⟩ : s2 = sd ∧ v = v1 := by simpa [sameTail] using hs
      cases s <;> simp [Cell.write, hne]
    · rename_i s2
      obtain rfl : s2 = sd := by simpa [sameTail] using hs
      cases s <;> simp [Cell.write, hne]
  · intro env a c hc
    show Cell.step cfg env a b (env (key b)) = _
    have hc' : env (key b) = some c := hc
    rw [hc']
    cases b <;> first | (cases hq; done) | rfl
  · intro as a env s h0 hgood hu hue hpos
    have hpos0 : Args.Pos w (as.map FArgs.toArgs) := by
      rw [args_snoc] at hpos
      exact hpos.init
    have hgs := hgood hpos0
    subst hgs
    have htail := tailOf_eq hpos0 (hfine u huS) huk hu
    obtain ⟨s0, e0⟩ := tailBoth_val cfg hk sd v1 as
    obtain ⟨s1, e1⟩ := tailBoth_val cfg hk sd v1 (as ++ [a])
    have e2 := tailBoth_snoc cfg sd v1 as a
    rw [e0, e1, Res.bind] at e2
    rw [e0, Res.bind] at htail
    show Cell.write cfg u.base env a ⟨b, false⟩ _ = _
    rw [hub]
    cases b <;> first | (cases hq; done) | skip
    · rename_i v s2
      obtain ⟨rfl, rfl⟩ : s2 = sd ∧ v = v1 := by simpa [sameTail] using hs
      simp only [Cell.write, idealCell, hdv v s2 rfl, Bool.false_eq_true, if_false, if_true, e0, e1, Res.bind, htail]
      rw [tailPush_slot cfg.heap s2 Prod.fst e2.symm]
    · rename_i s2
      obtain rfl : s2 = sd := by simpa [sameTail] using hs
      simp only [Cell.write, idealCell, hdw s2 rfl, Bool.false_eq_true, if_false, if_true, e0, e1, Res.bind, htail]
      rw [tailPush_slot cfg.heap s2 Prod.snd e2.symm]

include hirr hk hfine hcomp in
/-- Every accumulator does its part. -/
theorem full_stepOk (hdv : ∀ t ∈ S, ∀ v s, t.base = tailVariate v s → t.drop = dv)
    (hdw : ∀ t ∈ S, ∀ s, t.base = tailWeights s → t.drop = dw) (t : Tag StdF) (ht : t ∈ S) :
    StepOkX stdLib (fullImpl cfg) S (GoodFull cfg w sd v1 dv dw) t := by
  cases hq : cached t.base with
  | false =>
    refine Or.inl ⟨full_quiet (Or.inr hq), ?_⟩
    cases he : elementary t.base with
    | true => exact stepOk_elem hirr hfine hcomp ht he
    | false => exact stepOk_other hirr hk hfine hcomp ht he hq
  | true =>
    cases hd : t.drop with
    | true =>
      exact Or.inl ⟨full_quiet (Or.inl hd), stepOk_dropped hq (fun v s h => (hdv t ht v s h).symm.trans hd)
        fun s h => (hdw t ht s h).symm.trans hd⟩
    | false =>
      exact stepOk_written hk hfine hcomp ht hq hd (fun v s h => (hdv t ht v s h).symm.trans hd)
        fun s h => (hdw t ht s h).symm.trans hd

end step

end Acc
