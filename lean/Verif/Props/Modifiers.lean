import Verif.Model.Modifiers
import Verif.Props.Framework
import Verif.Props.StatSet
import Verif.Props.FullSet

/-!
# C82: modifiers

What `feature(modifier)` in the request of a set installs, and what the extractors then find.
-/

set_option linter.unusedSectionVars false

namespace Acc

open StdF

namespace Spec

/-- The weighted name of a name: `tag::mean` becomes `tag::weighted_mean`, and so on. -/
def weightedName : ModName → ModName
  | .std f => .std f.weighted
  | .tailVariateMeans s v => .weightedTailVariateMeans s v
  | .weightedTailVariateMeans s v => .weightedTailVariateMeans s v

/-- Two requests that differ in their modifiers at most (a plain name counts as one without modifier). -/
inductive SameName : Request → Request → Prop
  | plain (f : StdF) : SameName (.plain f) (.plain f)
  | mods (f : StdF) (m m' : Mod) : SameName (.modified (.std f) m) (.modified (.std f) m')
  | left (f : StdF) (m : Mod) : SameName (.plain f) (.modified (.std f) m)
  | right (f : StdF) (m : Mod) : SameName (.modified (.std f) m) (.plain f)
  | droppable {r r' : Request} : SameName r r' → SameName (.droppable r) (.droppable r')

end Spec

/-- `feature_of<tag>` and its droppable version agree. -/
theorem resolve_droppable {r : Request} {t : Tag StdF} (h : r.resolve = some t) (hd : t.drop = false) :
    (Request.droppable r).resolve = some ⟨t.base, true⟩ := by
  obtain ⟨f, b⟩ := t
  cases hd
  simp only [Request.resolve, h]

theorem resolve_droppable_inv {r : Request} {t : Tag StdF} (h : (Request.droppable r).resolve = some t) :
    ∃ f, r.resolve = some ⟨f, false⟩ ∧ t = ⟨f, true⟩ := by
  simp only [Request.resolve] at h
  split at h
  · next f h' => exact ⟨f, h', (Option.some.inj h).symm⟩
  · cases h

/-! ## The table -/

/-- C82: a name with a modifier is a variant of what the name stands for: the two provide the same abstract feature, so
the extractor of the name finds it. -/
theorem C82_same_feature {f g : StdF} {m : Mod} (h : asFeature (.std f) m = some g) : key g = key f := by
  cases f <;> cases m <;> first | (cases h; done) | (cases h; rfl)

/-- C82: `tail_variate_means`, which has no meaning by itself, becomes the absolute or the relative variant, of the same
side and covariate. -/
theorem C82_tail_variate_means (s : Side) (v : ℕ) {m : Mod} {g : StdF} (h : asFeature (.tailVariateMeans s v) m = some g) :
    m = .absolute ∧ g = absoluteTailVariateMeans s v ∨ m = .relative ∧ g = relativeTailVariateMeans s v := by
  cases m <;> simp_all [asFeature]

/-- C82: a modifier means the same in a set with weights: the weighted flavour of `feature(modifier)` is
`weighted_feature(modifier)`. -/
theorem C82_weighted {n : ModName} {m : Mod} {g : StdF} (h : asFeature n m = some g) :
    asFeature (Spec.weightedName n) m = some g.weighted := by
  cases n with
  | std f => cases f <;> cases m <;> first | (cases h; done) | (cases h; rfl)
  | tailVariateMeans s v => cases m <;> first | (cases h; done) | (cases h; rfl)
  | weightedTailVariateMeans s v => cases m <;> first | (cases h; done) | (cases h; rfl)

/-- The modifiers among which a user chooses: how a mean, a sum, a median, a peaks-over-threshold fit, an interpolation or a
variate mean is made. -/
def Spec.choices : List (List Mod) :=
  [[.lazy, .immediate], [.kahan], [.withDensity, .withPSquareQuantile, .withCumul],
    [.withThresholdValue, .withThresholdProbability], [.linear, .quadratic], [.absolute, .relative]]

/-- C82: a name that takes a modifier takes exactly the alternatives to it. -/
theorem C82_alternatives {n : ModName} {m : Mod} {g : StdF} (h : asFeature n m = some g) (m' : Mod) :
    (∃ g', asFeature n m' = some g') ↔ ∃ c ∈ Spec.choices, m ∈ c ∧ m' ∈ c := by
  cases n with
  | std f =>
    cases f <;> cases m <;> first
      | (cases h; done)
      | (cases m' <;> first
          | exact ⟨fun ⟨_, h⟩ => (by cases h), fun h => absurd h (by decide)⟩
          | exact ⟨fun _ => by decide, fun _ => ⟨_, rfl⟩⟩)
  | tailVariateMeans s v =>
    cases m <;> first
      | (cases h; done)
      | (cases m' <;> first
          | exact ⟨fun ⟨_, h⟩ => (by cases h), fun h => absurd h (by decide)⟩
          | exact ⟨fun _ => by decide, fun _ => ⟨_, rfl⟩⟩)
  | weightedTailVariateMeans s v =>
    cases m <;> first
      | (cases h; done)
      | (cases m' <;> first
          | exact ⟨fun ⟨_, h⟩ => (by cases h), fun h => absurd h (by decide)⟩
          | exact ⟨fun _ => by decide, fun _ => ⟨_, rfl⟩⟩)

/-- What a feature needs stays within any set of features closed under dependencies. -/
theorem needs_within {S : List (Tag StdF)} (hS : ∀ t ∈ S, ∀ d ∈ stdLib.asList false (stdLib.tdeps t), d ∈ S)
    {t d : Tag StdF} (ht : t ∈ S) (h : Spec.Needs stdLib false t d) : d ∈ S := by
  induction h with
  | direct h1 => exact hS _ ht _ h1
  | step h1 _ ih => exact ih (hS _ ht _ h1)

/-- C82: `error_of` of a feature, with whatever modifier, needs that feature and no other variant of it. -/
theorem C82_error_of {r : Request} {t e : Tag StdF} (ht : r.resolve = some t)
    (he : (Request.errorOf r).resolve = some e) :
    Spec.Needs stdLib false e t ∧ ∀ d, Spec.Needs stdLib false e d → stdLib.tkey d = stdLib.tkey t → d = t := by
  have key : (t = ⟨mean, false⟩ ∧ e = ⟨errorOfMean, false⟩) ∨
      (t = ⟨immediateMean, false⟩ ∧ e = ⟨errorOfImmediateMean, false⟩) := by
    simp only [Request.resolve, ht] at he
    obtain ⟨f, b⟩ := t
    cases b
    · cases f <;> first
        | (cases he; done)
        | exact .inl ⟨rfl, (Option.some.inj he).symm⟩
        | exact .inr ⟨rfl, (Option.some.inj he).symm⟩
    · cases f <;> cases he
  rcases key with ⟨rfl, rfl⟩ | ⟨rfl, rfl⟩
  · refine ⟨.step (d := ⟨lazyVariance, false⟩) (by decide) (.direct (by decide)), fun d hd hk => ?_⟩
    have := needs_within (S := [⟨errorOfMean, false⟩, ⟨lazyVariance, false⟩, ⟨count, false⟩, ⟨mean, false⟩,
      ⟨moment 2, false⟩, ⟨sum, false⟩]) (by decide) (by decide) hd
    revert hk
    revert d
    simp only [List.mem_cons, List.not_mem_nil, or_false]
    rintro d - (rfl | rfl | rfl | rfl | rfl | rfl) <;> decide
  · refine ⟨.step (d := ⟨variance, false⟩) (by decide) (.direct (by decide)), fun d hd hk => ?_⟩
    have := needs_within (S := [⟨errorOfImmediateMean, false⟩, ⟨variance, false⟩, ⟨count, false⟩,
      ⟨immediateMean, false⟩]) (by decide) (by decide) hd
    revert hk
    revert d
    simp only [List.mem_cons, List.not_mem_nil, or_false]
    rintro d - (rfl | rfl | rfl | rfl) <;> decide

example : ∃ t e, (Request.modified (.std mean) .immediate).resolve = some t ∧
    (Request.errorOf (.modified (.std mean) .immediate)).resolve = some e ∧ t = ⟨immediateMean, false⟩ ∧
    Spec.Needs stdLib false e t :=
  ⟨_, _, rfl, rfl, rfl, (C82_error_of (r := .modified (.std mean) .immediate) rfl rfl).1⟩

/-- The features that are variants of another one by their name. -/
def Spec.isVariant : StdF → Bool
  | immediateMean | immediateMeanOfWeights | immediateMeanOfVariates _ | immediateWeightedMean
  | immediateWeightedMeanOfVariates _ | sumKahan | sumOfWeightsKahan | weightedSumKahan | lazyVariance | lazyWeightedVariance
  | lazyRollingMean | immediateRollingMean | lazyRollingVariance | immediateRollingVariance | withDensityMedian
  | withCumulMedian | withDensityWeightedMedian | withCumulWeightedMedian | extendedPSquareQuantileQuadratic
  | weightedExtendedPSquareQuantileQuadratic | absoluteTailVariateMeans _ _ | relativeTailVariateMeans _ _
  | absoluteWeightedTailVariateMeans _ _ | relativeWeightedTailVariateMeans _ _ | peaksOverThresholdProb _
  | weightedPeaksOverThresholdProb _ | potQuantileProb _ | weightedPotQuantileProb _ | potTailMeanProb _
  | weightedPotTailMeanProb _ => true
  | _ => false

/-- C82: every variant can be asked for by a name with a modifier. -/
theorem C82_every_variant {g : StdF} (h : Spec.isVariant g = true) : ∃ n m, asFeature n m = some g := by
  cases g <;> first
    | (cases h; done)
    | exact ⟨.std mean, .immediate, rfl⟩ | exact ⟨.std meanOfWeights, .immediate, rfl⟩
    | exact ⟨.std (meanOfVariates _), .immediate, rfl⟩ | exact ⟨.std weightedMean, .immediate, rfl⟩
    | exact ⟨.std (weightedMeanOfVariates _), .immediate, rfl⟩ | exact ⟨.std sum, .kahan, rfl⟩
    | exact ⟨.std sumOfWeights, .kahan, rfl⟩ | exact ⟨.std weightedSum, .kahan, rfl⟩
    | exact ⟨.std variance, .lazy, rfl⟩ | exact ⟨.std weightedVariance, .lazy, rfl⟩
    | exact ⟨.std rollingMean, .lazy, rfl⟩ | exact ⟨.std rollingMean, .immediate, rfl⟩
    | exact ⟨.std rollingVariance, .lazy, rfl⟩ | exact ⟨.std rollingVariance, .immediate, rfl⟩
    | exact ⟨.std median, .withDensity, rfl⟩ | exact ⟨.std median, .withCumul, rfl⟩
    | exact ⟨.std weightedMedian, .withDensity, rfl⟩ | exact ⟨.std weightedMedian, .withCumul, rfl⟩
    | exact ⟨.std extendedPSquareQuantile, .quadratic, rfl⟩ | exact ⟨.std weightedExtendedPSquareQuantile, .quadratic, rfl⟩
    | exact ⟨.tailVariateMeans _ _, .absolute, rfl⟩ | exact ⟨.tailVariateMeans _ _, .relative, rfl⟩
    | exact ⟨.weightedTailVariateMeans _ _, .absolute, rfl⟩ | exact ⟨.weightedTailVariateMeans _ _, .relative, rfl⟩
    | exact ⟨.std (peaksOverThreshold _), .withThresholdProbability, rfl⟩
    | exact ⟨.std (weightedPeaksOverThreshold _), .withThresholdProbability, rfl⟩
    | (rename_i s; exact ⟨.std (StdF.potQuantile s), .withThresholdProbability, rfl⟩)
    | exact ⟨.std (weightedPotQuantile _), .withThresholdProbability, rfl⟩
    | (rename_i s; exact ⟨.std (StdF.potTailMean s), .withThresholdProbability, rfl⟩)
    | exact ⟨.std (weightedPotTailMean _), .withThresholdProbability, rfl⟩

/-- C82: no modifier is ignored: two different modifiers of one name give two different implementations. -/
theorem C82_distinct {n : ModName} {m m' : Mod} {g : StdF} (h : asFeature n m = some g) (h' : asFeature n m' = some g) :
    m = m' := by
  cases n with
  | std f => cases f <;> cases m <;> first | (cases h; done) | (cases h; cases m' <;> first | rfl | cases h')
  | tailVariateMeans s v => cases m <;> first | (cases h; done) | (cases h; cases m' <;> first | rfl | cases h')
  | weightedTailVariateMeans s v =>
    cases m <;> first | (cases h; done) | (cases h; cases m' <;> first | rfl | cases h')

theorem sameName_key {r r' : Request} (h : Spec.SameName r r') {t t' : Tag StdF} (ht : r.resolve = some t)
    (ht' : r'.resolve = some t') : stdLib.tkey t = stdLib.tkey t' := by
  induction h generalizing t t' with
  | plain f => rw [ht] at ht'; cases ht'; rfl
  | mods f m m' =>
    simp only [Request.resolve, Option.map_eq_some_iff] at ht ht'
    obtain ⟨g, h1, rfl⟩ := ht
    obtain ⟨g', h2, rfl⟩ := ht'
    exact (C82_same_feature h1).trans (C82_same_feature h2).symm
  | left f m =>
    simp only [Request.resolve, Option.map_eq_some_iff] at ht ht'
    obtain ⟨g', h2, rfl⟩ := ht'
    cases ht
    exact (C82_same_feature h2).symm
  | right f m =>
    simp only [Request.resolve, Option.map_eq_some_iff] at ht ht'
    obtain ⟨g', h2, rfl⟩ := ht
    cases ht'
    exact C82_same_feature h2
  | droppable _ ih =>
    obtain ⟨f, h1, rfl⟩ := resolve_droppable_inv ht
    obtain ⟨f', h2, rfl⟩ := resolve_droppable_inv ht'
    show stdLib.tkey ⟨f, false⟩ = stdLib.tkey ⟨f', false⟩
    exact ih h1 h2

theorem resolveAll_cons {r : Request} {rs : List Request} {req : List (Tag StdF)} (h : resolveAll (r :: rs) = some req) :
    ∃ t l, r.resolve = some t ∧ resolveAll rs = some l ∧ req = t :: l := by
  unfold resolveAll at h
  rw [List.mapM_cons] at h
  cases h1 : r.resolve with
  | none => rw [h1] at h; cases h
  | some t =>
    cases h2 : rs.mapM Request.resolve with
    | none => rw [h1, h2] at h; cases h
    | some l =>
      rw [h1, h2] at h
      exact ⟨t, l, rfl, h2, (Option.some.inj h).symm⟩

theorem resolveAll_append {a b : List Request} {req : List (Tag StdF)} (h : resolveAll (a ++ b) = some req) :
    ∃ l l', resolveAll a = some l ∧ resolveAll b = some l' ∧ req = l ++ l' := by
  induction a generalizing req with
  | nil => exact ⟨[], req, rfl, h, rfl⟩
  | cons r a ih =>
    obtain ⟨t, l, h1, h2, rfl⟩ := resolveAll_cons h
    obtain ⟨l1, l2, h3, h4, rfl⟩ := ih h2
    refine ⟨t :: l1, l2, ?_, h4, rfl⟩
    unfold resolveAll at h3 ⊢
    rw [List.mapM_cons, h1, h3]
    rfl

theorem mem_resolveAll {rs : List Request} {req : List (Tag StdF)} (h : resolveAll rs = some req) {t : Tag StdF} :
    t ∈ req ↔ ∃ r ∈ rs, r.resolve = some t := by
  induction rs generalizing req with
  | nil => cases h; simp
  | cons r rs ih =>
    obtain ⟨t', l, h1, h2, rfl⟩ := resolveAll_cons h
    simp only [List.mem_cons, exists_eq_or_imp, ih h2, h1, Option.some.injEq]
    constructor
    · rintro (rfl | h) <;> simp [*]
    · rintro (rfl | h) <;> simp [*]

/-! ## What is installed and found -/

section
variable (w : Bool) {ord : List (Tag StdF) → List (Tag StdF)} (hord : ∀ l, (ord l).Perm l)

include hord in
/-- C82: in a set whose request lists `r` (a feature with or without modifier, droppable or not) before any other
request for the same abstract feature, the accumulator for exactly that variant is installed (in its weighted flavour if
the set has weights), whatever default the other features depend on; and extracting through any tag, with any modifier,
that stands for this abstract feature finds it. -/
theorem C82_installed {a b : List Request} {r : Request} {t : Tag StdF} {S : List (Tag StdF)}
    (hS : setOf w ord (a ++ r :: b) = some S) (ht : r.resolve = some t)
    (ha : ∀ q ∈ a, ∀ u, q.resolve = some u → stdLib.tkey u ≠ stdLib.tkey t) :
    (⟨if w then t.base.weighted else t.base, t.drop⟩ : Tag StdF) ∈ S ∧
    ∀ q u, q.resolve = some u → stdLib.tkey u = stdLib.tkey t →
      findIn S q = some ⟨if w then t.base.weighted else t.base, t.drop⟩ := by
  unfold setOf at hS
  obtain ⟨req, hreq, rfl⟩ := Option.map_eq_some_iff.1 hS
  obtain ⟨l, l', h1, h2, rfl⟩ := resolveAll_append hreq
  obtain ⟨t', l2, h3, h4, rfl⟩ := resolveAll_cons h2
  rw [ht] at h3
  cases h3
  have hfirst : Spec.FirstOfKind stdLib (stdLib.asList w (l ++ t :: l2)) ⟨if w then t.base.weighted else t.base, t.drop⟩ := by
    have hl : ∀ u ∈ l, stdLib.tkey u ≠ stdLib.tkey t := fun u hu => by
      obtain ⟨q, hq, e⟩ := (mem_resolveAll h1).1 hu
      exact ha q hq u e
    cases w with
    | false => exact ⟨l, l2, rfl, hl⟩
    | true =>
      refine ⟨l.map fun t => ⟨stdLib.weighted t.base, t.drop⟩, l2.map fun t => ⟨stdLib.weighted t.base, t.drop⟩, ?_, ?_⟩
      · simp [Lib.asList, stdLib]
      · intro u hu
        obtain ⟨u', hu', rfl⟩ := List.mem_map.1 hu
        have e1 : stdLib.tkey ⟨stdLib.weighted u'.base, u'.drop⟩ = stdLib.tkey u' := stdLib_ok.weighted_key _
        have e2 : stdLib.tkey ⟨if true then t.base.weighted else t.base, t.drop⟩ = stdLib.tkey t := stdLib_ok.weighted_key _
        rw [e1, e2]
        exact hl u' hu'
  have hmem := C43_first_wins stdLib_ok w hord _ hfirst
  refine ⟨hmem, fun q u hq hu => ?_⟩
  unfold findIn
  rw [hq, Option.bind_some]
  refine C46_finds stdLib_ok w hord _ hmem ?_
  rw [hu]
  cases w with
  | false => rfl
  | true => exact (stdLib_ok.weighted_key _).symm

include hord in
/-- C82, for a modified name: `extract::feature`, `extract_result<feature(other modifier)>`,
`extract_result<droppable<feature>>` all find the variant asked for. -/
theorem C82_extracts {a b : List Request} {f g : StdF} {m : Mod} {S : List (Tag StdF)}
    (hS : setOf w ord (a ++ .modified (.std f) m :: b) = some S) (hg : asFeature (.std f) m = some g)
    (ha : ∀ q ∈ a, ∀ u, q.resolve = some u → stdLib.tkey u ≠ key f) :
    findIn S (.plain f) = some ⟨if w then g.weighted else g, false⟩ ∧
    findIn S (.droppable (.plain f)) = some ⟨if w then g.weighted else g, false⟩ ∧
    findIn S (.plain f.weighted) = some ⟨if w then g.weighted else g, false⟩ ∧
    ∀ m' g', asFeature (.std f) m' = some g' →
      findIn S (.modified (.std f) m') = some ⟨if w then g.weighted else g, false⟩ := by
  have hk := C82_same_feature hg
  have h := (C82_installed w hord hS (t := ⟨g, false⟩) (by simp [Request.resolve, hg]) fun q hq u hu => by
    rw [show stdLib.tkey ⟨g, false⟩ = key g from rfl, hk]
    exact ha q hq u hu).2
  refine ⟨h _ ⟨f, false⟩ rfl hk.symm, h _ ⟨f, true⟩ rfl hk.symm, h _ ⟨f.weighted, false⟩ rfl ?_, fun m' g' hm' => ?_⟩
  · exact (stdLib_ok.weighted_key f).trans hk.symm
  · refine h _ ⟨g', false⟩ (by simp [Request.resolve, hm']) ?_
    exact (C82_same_feature hm').trans hk.symm

end

/-! ## What is computed -/

section
variable {K : Type} [Field K] [LinearOrder K] [IsStrictOrderedRing K]
variable {irr : StdF → ℕ → (StdF → Res K) → Res K} {lo hi : K} {v0 : ℕ}

/-- C82: in exact arithmetic the modifiers of the elementary statistics change nothing: take two sets whose requests
differ in modifiers only; after the same stream every requested elementary statistic is the same in both. -/
theorem C82_agree (hirr : IrrOk irr) (w : Bool) {ord ord' : List (Tag StdF) → List (Tag StdF)}
    (hord : ∀ l, (ord l).Perm l) (hord' : ∀ l, (ord' l).Perm l) {rs rs' : List Request}
    (hn : List.Forall₂ Spec.SameName rs rs') {req req' : List (Tag StdF)} (hreq : resolveAll rs = some req)
    (hreq' : resolveAll rs' = some req') (hb : ∀ t ∈ stdLib.asList w req, basic w v0 t.base = true)
    (hb' : ∀ t ∈ stdLib.asList w req', basic w v0 t.base = true) {as : List (Args K)} (hne : as ≠ [])
    (hpos : w = true → ∀ a ∈ as, 0 < a.w) {r : Request} (hr : r ∈ rs) {t : Tag StdF} (ht : r.resolve = some t) :
    statRun irr lo hi w ord req as (stdLib.tkey t) = statRun irr lo hi w ord' req' as (stdLib.tkey t) := by
  have hpair : ∃ r' ∈ rs', Spec.SameName r r' := by
    clear hreq hreq' hb hb' ht
    induction hn with
    | nil => cases hr
    | cons h _ ih =>
      rcases List.mem_cons.1 hr with rfl | hr
      · exact ⟨_, List.mem_cons_self, h⟩
      · obtain ⟨r', h1, h2⟩ := ih hr
        exact ⟨r', List.mem_cons_of_mem _ h1, h2⟩
  obtain ⟨r', hr', hs⟩ := hpair
  have hres : ∃ t', r'.resolve = some t' := by
    clear hs hb' hn
    induction rs' generalizing req' with
    | nil => cases hr'
    | cons q l ih =>
      obtain ⟨t', l', h1, h2, -⟩ := resolveAll_cons hreq'
      rcases List.mem_cons.1 hr' with rfl | hr'
      · exact ⟨t', h1⟩
      · exact ih h2 hr'
  obtain ⟨t', ht'⟩ := hres
  have htm := (mem_resolveAll hreq).2 ⟨r, hr, ht⟩
  have htm' := (mem_resolveAll hreq').2 ⟨r', hr', ht'⟩
  have hk := sameName_key hs ht ht'
  rw [C65_agree hirr w hord hord' req req' hb hb' hne hpos htm htm' hk, hk]

end

/-! ## Examples and witnesses -/

example : asFeature (.std variance) .lazy = some lazyVariance := rfl

/-- `stats<tag::kurtosis, tag::mean(immediate), tag::droppable<tag::sum(kahan)>>`: the immediate mean and the
compensated sum are installed instead of the defaults, also where kurtosis uses the mean. -/
example : setOf false id [.plain kurtosis, .modified (.std mean) .immediate, .droppable (.modified (.std sum) .kahan)]
    = some [tg count, tg immediateMean, dr sumKahan, tg (moment 2), tg (moment 3), tg (moment 4), tg kurtosis] := by
  decide +kernel

/-- `error_of<mean(lazy)>` and `error_of<mean(immediate)>` bring the mean they name. -/
example : setOf false id (withError [.modified (.std mean) .lazy])
      = some [tg count, tg (moment 2), tg sum, tg mean, tg lazyVariance, tg errorOfMean] ∧
    setOf false id (withError [.modified (.std mean) .immediate])
      = some [tg count, tg immediateMean, tg variance, tg errorOfImmediateMean] := by
  decide +kernel

/-- C82: the position in the request counts, not the modifier: `stats<variance(lazy), mean(immediate)>` gives
`lazy_variance` the immediate mean, and of `stats<mean, mean(immediate)>` the modifier is without effect. -/
theorem C82_later_is_ignored :
    setOf false id [.plain mean, .modified (.std mean) .immediate] = some [tg count, tg sum, tg mean] ∧
    setOf false id [.modified (.std variance) .lazy, .modified (.std mean) .immediate]
      = some [tg count, tg immediateMean, tg (moment 2), tg sum, tg lazyVariance] := by
  decide +kernel

/-- C82: a modifier that the name does not know does not compile, even where the documentation of the modifier lists the
statistic (`kahan` and `sum_of_variates`). -/
theorem C82_no_alias : ∀ v, asFeature (.std (sumOfVariates v)) .kahan = none ∧
    asFeature (.std (weightedSumOfVariates v)) .kahan = none := fun _ => ⟨rfl, rfl⟩

end Acc
