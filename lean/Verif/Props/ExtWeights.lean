import Verif.Model.ExtWeights
import Verif.Props.StatSet

/-!
# C83: weights kept in another set

A set with external weights together with the set of the weights computes what one set with weights computes, if the
two are fed in the right order.
-/

set_option linter.unusedSectionVars false

namespace Acc

open StdF Args

section
variable {K : Type} [Field K] [LinearOrder K] [IsStrictOrderedRing K]
variable {irr : StdF → ℕ → (StdF → Res K) → Res K} (hirr : IrrOk irr) {v0 : ℕ} {lo hi : K}

/-! ## The accumulators of the set with external weights -/

/-- The accumulator holds what it should, or is external. -/
def ExtHolds (lo hi : K) (as : List (Args K)) (env : Env StdF (StatCell K)) (t : Tag StdF) : Prop :=
  ∃ c, env (stdLib.tkey t) = some (t.base, c) ∧ (t.base.isWeightAcc = false → c = ideal lo hi as t.base)

theorem overlay_of_not {ext : StdF → Res K} {env : Env StdF (StatCell K)} {k f : StdF} {c : StatCell K}
    (h : env k = some (f, c)) (hf : f.isWeightAcc = false) : overlay ext env k = some (f, c) := by
  unfold overlay
  rw [h]
  cases f <;> first | rfl | cases hf

theorem no_meanOfWeights_dep (f : StdF) : ∀ d ∈ depBases f, key d ≠ meanOfWeights := by
  rw [← List.forall_mem_map (f := key) (P := fun k => k ≠ meanOfWeights)]
  cases f <;> simp [depBases, key]

theorem uses_not_meanOfWeights {S : List (Tag StdF)} {u t : Tag StdF} (h : Spec.Uses stdLib S u t) :
    stdLib.tkey t ≠ meanOfWeights := by
  induction h with
  | direct _ hd hk =>
    rw [← hk]
    obtain ⟨d0, h0, rfl⟩ := List.mem_map.1 hd
    exact no_meanOfWeights_dep _ d0 h0
  | step _ _ _ _ ih => exact ih

/-- Through the overlay the external accumulators hold what they should, if the other set does. -/
theorem overlay_holds {as : List (Args K)} {ext : StdF → Res K} (hext : ext sumOfWeights = .val (ws as).sum)
    {env : Env StdF (StatCell K)} {t : Tag StdF} (h : ExtHolds lo hi as env t) (hm : stdLib.tkey t ≠ meanOfWeights) :
    Holds stdLib (GoodStat true lo hi) as (overlay ext env) t := by
  obtain ⟨c, h1, h2⟩ := h
  by_cases hw : t.base.isWeightAcc = false
  · exact ⟨c, overlay_of_not h1 hw, fun _ => h2 hw⟩
  · obtain ⟨f, b⟩ := t
    cases f <;> first | exact absurd rfl hw | exact absurd rfl hm | skip
    · refine ⟨.num (ws as).sum, ?_, fun _ => rfl⟩
      unfold overlay
      rw [h1]
      simp only [hext]
    · refine ⟨.kahan ⟨(ws as).sum, 0⟩, ?_, fun _ => rfl⟩
      unfold overlay
      rw [h1]
      simp only [hext]

section set
variable {S : List (Tag StdF)} (hbas : ∀ t ∈ S, basic true v0 t.base = true) (hcomp : Complete stdLib S)

include hirr hbas hcomp in
/-- One push, if the other set knows the weight already. -/
theorem ext_step {t : Tag StdF} (ht : t ∈ S) {as : List (Args K)} {a : Args K} (hpos : Pos true (as ++ [a]))
    {ext : StdF → Res K} (hext : ext sumOfWeights = .val (ws (as ++ [a])).sum) {env : Env StdF (StatCell K)}
    (hown : ExtHolds lo hi as env t) (huse : ∀ e, Spec.Uses stdLib S t e → ExtHolds lo hi (as ++ [a]) env e)
    (hw : t.base.isWeightAcc = false) :
    (extImpl irr lo hi).upd t.base env ⟨a, ext⟩ = ideal lo hi (as ++ [a]) t.base := by
  have h := stat_stepOk hirr (lo := lo) (hi := hi) (fun t ht _ => hbas t ht) hcomp t ht (basic_elemKey (hbas t ht)) as a
    (overlay ext env) ?_ (fun e he => overlay_holds hext (huse e he) (uses_not_meanOfWeights he)) hpos
  · simpa only [extImpl, hw, Bool.false_eq_true, if_false] using h
  · obtain ⟨c, h1, h2⟩ := hown
    exact ⟨c, overlay_of_not h1 hw, fun _ => h2 hw⟩

include hirr hbas hcomp in
/-- Extraction, if the other set holds the same weights. -/
theorem extRead_eq {as : List (Args K)} (hne : as ≠ []) (hpos : Pos true as) {ext : StdF → Res K}
    (hext : ext sumOfWeights = .val (ws as).sum) {env : Env StdF (StatCell K)} {t : Tag StdF} (ht : t ∈ S)
    (hh : ∀ e, Below stdLib S t e → ExtHolds lo hi as env e) (hm : stdLib.tkey t ≠ meanOfWeights) :
    extRead irr ext env (stdLib.tkey t) = stat irr true v0 lo hi as (stdLib.tkey t) := by
  have h := read_ideal hirr (lo := lo) (hi := hi) (fun t ht _ => hbas t ht) hcomp hne hpos (env := overlay ext env) ht
    (basic_elemKey (hbas t ht)) fun e he => overlay_holds hext (hh e he) (by
      rcases he with rfl | he
      · exact hm
      · exact uses_not_meanOfWeights he)
  obtain ⟨c, h1, -⟩ := hh t (Or.inl rfl)
  unfold extRead
  rw [h1]
  dsimp only
  split
  · next hw =>
    obtain ⟨f, b⟩ := t
    cases f <;> first | (cases hw; done) | exact absurd rfl hm | exact hext
  · exact h

end set

/-- The other set knows, at every push, the weights up to and including that of the sample pushed. -/
def Synced (es : List (ExtArgs K)) : Prop :=
  ∀ pre e post, es = pre ++ e :: post → e.ext sumOfWeights = .val (ws ((pre ++ [e]).map ExtArgs.a)).sum

theorem Synced.init {es : List (ExtArgs K)} {e : ExtArgs K} (h : Synced (es ++ [e])) : Synced es := by
  rintro pre x post rfl
  exact h pre x (post ++ [e]) (by simp)

/-- What an accumulator of the set with external weights should hold. -/
def GoodExt (lo hi : K) (f : StdF) (es : List (ExtArgs K)) (c : StatCell K) : Prop :=
  Pos true (es.map ExtArgs.a) → Synced es → f.isWeightAcc = false → c = ideal lo hi (es.map ExtArgs.a) f

theorem ext_init (f : StdF) : GoodExt lo hi f [] ((extImpl irr lo hi).init f) := by
  intro _ _ hw
  simp only [extImpl, hw, Bool.false_eq_true, if_false, List.map_nil]
  exact stat_init (w := true) f fun _ a ha => by cases ha

include hirr in
theorem ext_stepOk {S : List (Tag StdF)} (hbas : ∀ t ∈ S, basic true v0 t.base = true) (hcomp : Complete stdLib S)
    (t : Tag StdF) (ht : t ∈ S) : StepOk stdLib (extImpl irr lo hi) S (GoodExt lo hi) t := by
  intro es e env hown huse hpos hsync hw
  rw [List.map_append] at hpos ⊢
  have hex := hsync es e [] rfl
  rw [List.map_append] at hex
  refine ext_step hirr hbas hcomp ht hpos hex ?_ (fun x hx => ?_) hw
  · obtain ⟨c, h1, h2⟩ := hown
    exact ⟨c, h1, fun hw => h2 hpos.init hsync.init hw⟩
  · obtain ⟨c, h1, h2⟩ := huse x hx
    refine ⟨c, h1, fun hw => ?_⟩
    have := h2 (by rw [List.map_append]; exact hpos) hsync hw
    rwa [List.map_append] at this

/-! ## The two sets -/

section two
variable {ord ordW : List (Tag StdF) → List (Tag StdF)} (hord : ∀ l, (ord l).Perm l) (hordW : ∀ l, (ordW l).Perm l)
  (req reqW : List (Tag StdF))

/-- The two sets after some pushes. -/
def twoRun (irr : StdF → ℕ → (StdF → Res K) → Res K) (lo hi : K) (ord ordW : List (Tag StdF) → List (Tag StdF))
    (req reqW : List (Tag StdF)) (ops : List (TwoOp K)) : TwoSets K :=
  TwoSets.run irr lo hi (stdLib.accumulators true ord req) (stdLib.accumulators true ordW reqW)
    (TwoSets.init irr lo hi (stdLib.accumulators true ord req) (stdLib.accumulators true ordW reqW) req reqW) ops

/-- The weights pushed to the set of the weights, the arguments pushed to the other. -/
def TwoOp.weight? : TwoOp K → Option K
  | .weight w => some w
  | .main _ => none

def TwoOp.main? : TwoOp K → Option (Args K)
  | .weight _ => none
  | .main a => some a

def onlyWeight (w : K) : Args K := ⟨0, w, fun _ => 0⟩

theorem twoRun_snoc (ops : List (TwoOp K)) (o : TwoOp K) :
    twoRun irr lo hi ord ordW req reqW (ops ++ [o]) = TwoSets.step irr lo hi (stdLib.accumulators true ord req)
      (stdLib.accumulators true ordW reqW) (twoRun irr lo hi ord ordW req reqW ops) o := by
  simp [twoRun, TwoSets.run]

theorem twoRun_refs (ops : List (TwoOp K)) :
    (twoRun irr lo hi ord ordW req reqW ops).main.refs
      = (TwoSets.init irr lo hi (stdLib.accumulators true ord req) (stdLib.accumulators true ordW reqW) req reqW).main.refs ∧
    (twoRun irr lo hi ord ordW req reqW ops).weights.refs
      = (TwoSets.init irr lo hi (stdLib.accumulators true ord req) (stdLib.accumulators true ordW reqW) req reqW).weights.refs := by
  induction ops using List.reverseRecOn with
  | nil => exact ⟨rfl, rfl⟩
  | append_singleton ops o ih =>
    rw [twoRun_snoc]
    cases o <;> exact ih

/-- The set of the weights is an ordinary set. -/
theorem twoRun_weights (ops : List (TwoOp K)) (k : StdF) :
    StatCell.read irr (twoRun irr lo hi ord ordW req reqW ops).weights.env k
      = statRun irr lo hi true ordW reqW ((ops.filterMap TwoOp.weight?).map onlyWeight) k := by
  have h : (twoRun irr lo hi ord ordW req reqW ops).weights.env
      = ((ops.filterMap TwoOp.weight?).map onlyWeight).foldl
        (stdLib.pushEnv (statImpl irr lo hi) (stdLib.accumulators true ordW reqW)
          (stdLib.construct (statImpl irr lo hi) (stdLib.accumulators true ordW reqW) reqW).refs)
        (stdLib.construct (statImpl irr lo hi) (stdLib.accumulators true ordW reqW) reqW).env := by
    induction ops using List.reverseRecOn with
    | nil => rfl
    | append_singleton ops o ih =>
      rw [twoRun_snoc]
      cases o with
      | main a => simpa [TwoOp.weight?, TwoSets.step, List.filterMap_cons] using ih
      | weight w =>
        simp only [TwoSets.step, ih, (twoRun_refs req reqW ops).2]
        simp [TwoOp.weight?, onlyWeight, TwoSets.init]
  unfold statRun
  rw [runOps_pushes, h]
  rfl

/-- The arguments of the pushes to the main set, with what they see of the other set. -/
def seen (irr : StdF → ℕ → (StdF → Res K) → Res K) (lo hi : K) (ordW : List (Tag StdF) → List (Tag StdF))
    (reqW : List (Tag StdF)) : List K → List (TwoOp K) → List (ExtArgs K)
  | _, [] => []
  | l, .weight w :: ops => seen irr lo hi ordW reqW (l ++ [w]) ops
  | l, .main a :: ops =>
    ⟨a, fun k => statRun irr lo hi true ordW reqW (l.map onlyWeight) k⟩ :: seen irr lo hi ordW reqW l ops

theorem seen_snoc_weight (l : List K) (ops : List (TwoOp K)) (w : K) :
    seen irr lo hi ordW reqW l (ops ++ [.weight w]) = seen irr lo hi ordW reqW l ops := by
  induction ops generalizing l with
  | nil => rfl
  | cons o ops ih => cases o <;> simp [seen, ih]

theorem seen_snoc_main (l : List K) (ops : List (TwoOp K)) (a : Args K) :
    seen irr lo hi ordW reqW l (ops ++ [.main a]) = seen irr lo hi ordW reqW l ops
      ++ [⟨a, fun k => statRun irr lo hi true ordW reqW ((l ++ ops.filterMap TwoOp.weight?).map onlyWeight) k⟩] := by
  induction ops generalizing l with
  | nil => simp [seen]
  | cons o ops ih => cases o <;> simp [seen, ih, TwoOp.weight?, List.filterMap_cons]

theorem seen_args (l : List K) (ops : List (TwoOp K)) :
    (seen irr lo hi ordW reqW l ops).map ExtArgs.a = ops.filterMap TwoOp.main? := by
  induction ops generalizing l with
  | nil => rfl
  | cons o ops ih => cases o <;> simp [seen, ih, TwoOp.main?, List.filterMap_cons]

theorem twoRun_main (ops : List (TwoOp K)) :
    (twoRun irr lo hi ord ordW req reqW ops).main.env
      = (seen irr lo hi ordW reqW [] ops).foldl
        (stdLib.pushEnv (extImpl irr lo hi) (stdLib.accumulators true ord req)
          (stdLib.construct (extImpl irr lo hi) (stdLib.accumulators true ord req) req).refs)
        (stdLib.construct (extImpl irr lo hi) (stdLib.accumulators true ord req) req).env := by
  induction ops using List.reverseRecOn with
  | nil => rfl
  | append_singleton ops o ih =>
    rw [twoRun_snoc]
    cases o with
    | weight w => rw [seen_snoc_weight]; exact ih
    | main a =>
      rw [seen_snoc_main, List.foldl_append, ← ih]
      simp only [TwoSets.step, (twoRun_refs req reqW ops).1, List.foldl_cons, List.foldl_nil, List.nil_append]
      have : StatCell.read irr (twoRun irr lo hi ord ordW req reqW ops).weights.env
          = fun k => statRun irr lo hi true ordW reqW ((ops.filterMap TwoOp.weight?).map onlyWeight) k :=
        funext fun k => twoRun_weights req reqW ops k
      rw [this]
      rfl

/-- The sum of the weights, as the other set tells it. -/
theorem weights_sum (hirr : IrrOk irr) (hordW : ∀ l, (ordW l).Perm l) {v1 : ℕ}
    (hbW : ∀ t ∈ stdLib.asList true reqW, basic true v1 t.base = true) {r : Tag StdF} (hr : r ∈ reqW)
    (hk : stdLib.tkey r = sumOfWeights) {l : List K} (hne : l ≠ []) (hpos : ∀ w ∈ l, 0 < w) :
    statRun irr lo hi true ordW reqW (l.map onlyWeight) sumOfWeights = .val l.sum := by
  have h := statRun_req hirr (lo := lo) (hi := hi) true hordW reqW hbW (as := l.map onlyWeight) (by simpa using hne)
    (fun _ a ha => by obtain ⟨w, hw, rfl⟩ := List.mem_map.1 ha; exact hpos w hw) hr
  rw [hk] at h
  rw [h]
  simp [stat, stat0, ws, onlyWeight, Function.comp_def]

theorem seen_split {l : List K} {ops : List (TwoOp K)} {pre post : List (ExtArgs K)} {e : ExtArgs K}
    (h : seen irr lo hi ordW reqW l ops = pre ++ e :: post) :
    ∃ opre opost, ops = opre ++ .main e.a :: opost ∧ pre = seen irr lo hi ordW reqW l opre ∧
      e.ext = fun k => statRun irr lo hi true ordW reqW ((l ++ opre.filterMap TwoOp.weight?).map onlyWeight) k := by
  induction ops generalizing l pre with
  | nil => simp [seen] at h
  | cons o ops ih =>
    cases o with
    | weight w =>
      obtain ⟨opre, opost, rfl, h2, h3⟩ := ih (l := l ++ [w]) h
      exact ⟨.weight w :: opre, opost, rfl, h2, by simpa [TwoOp.weight?, List.filterMap_cons] using h3⟩
    | main a =>
      cases pre with
      | nil =>
        simp only [seen, List.nil_append, List.cons.injEq] at h
        obtain ⟨rfl, -⟩ := h
        exact ⟨[], ops, rfl, rfl, by simp⟩
      | cons e' pre =>
        simp only [seen, List.cons_append, List.cons.injEq] at h
        obtain ⟨rfl, h⟩ := h
        obtain ⟨opre, opost, rfl, rfl, h3⟩ := ih h
        exact ⟨.main a :: opre, opost, rfl, rfl, by simpa [TwoOp.weight?, List.filterMap_cons] using h3⟩

end two

end

namespace Spec

variable {K : Type} [Field K]

/-- Whenever a sample is pushed, its weight has been pushed to the set of the weights, and the two sets agree on the
total. -/
def InStep (ops : List (TwoOp K)) : Prop :=
  ∀ pre a post, ops = pre ++ .main a :: post →
    (pre.filterMap TwoOp.weight?).sum = ((pre.filterMap TwoOp.main?).map Args.w).sum + a.w

/-- The features that look at the sum of the weights while a sample is pushed. -/
def looksAhead : StdF → Bool
  | immediateWeightedMean | immediateWeightedMeanOfVariates _ | weightedVariance | weightedCovariance _ => true
  | _ => false

end Spec

section
variable {K : Type} [Field K] [LinearOrder K] [IsStrictOrderedRing K]
variable {irr : StdF → ℕ → (StdF → Res K) → Res K} (hirr : IrrOk irr) {v0 v1 : ℕ} {lo hi : K}
variable {ord ordW : List (Tag StdF) → List (Tag StdF)} (hord : ∀ l, (ord l).Perm l) (hordW : ∀ l, (ordW l).Perm l)
  {req reqW : List (Tag StdF)} (hb : ∀ t ∈ stdLib.asList true req, basic true v0 t.base = true)
  (hbW : ∀ t ∈ stdLib.asList true reqW, basic true v1 t.base = true)

include hirr hord hordW hb hbW in
/-- Extraction, once the accumulators hold what they should. -/
theorem two_extract {ops : List (TwoOp K)} {as : List (Args K)} (hne : as ≠ [])
    (hpos : ∀ a ∈ as, 0 < a.w) (hposW : ∀ w ∈ ops.filterMap TwoOp.weight?, 0 < w)
    (htot : (ops.filterMap TwoOp.weight?).sum = (as.map Args.w).sum)
    (hlim : ∀ a ∈ as, lo ≤ a.x ∧ a.x ≤ hi) {rW : Tag StdF} (hrW : rW ∈ reqW) (hkW : stdLib.tkey rW = sumOfWeights)
    {r : Tag StdF} (hr : r ∈ req) (h1 : stdLib.tkey r ≠ skewness) (h2 : stdLib.tkey r ≠ errorOfMean)
    (h3 : stdLib.tkey r ≠ meanOfWeights)
    (hh : ∀ u ∈ stdLib.accumulators true ord req, Spec.Mentions stdLib req (stdLib.tkey u) →
      ∀ e, Below stdLib (stdLib.accumulators true ord req) u e →
      ExtHolds lo hi as (twoRun irr lo hi ord ordW req reqW ops).main.env e) :
    Spec.IsStat true v0 as (stdLib.tkey r)
      ((twoRun irr lo hi ord ordW req reqW ops).extract irr (stdLib.tkey r)) := by
  have hbas := basic_accumulators true hord req hb
  have hcomp := accumulators_complete stdLib_ok true hord req
  have hwne : ops.filterMap TwoOp.weight? ≠ [] := by
    intro h
    rw [h] at htot
    have : 0 < (as.map Args.w).sum := List.sum_pos _ (by simpa using hpos) (by simpa using hne)
    simp only [List.sum_nil] at htot
    exact absurd htot this.ne
  have hr' : (⟨r.base.weighted, r.drop⟩ : Tag StdF) ∈ stdLib.asList true req := List.mem_map.2 ⟨r, hr, rfl⟩
  obtain ⟨e, ⟨he, hk⟩, -⟩ := (C42_closure stdLib_ok true hord req).1 _ hr'
  have hk' : stdLib.tkey e = stdLib.tkey r := hk.trans (stdLib_ok.weighted_key _)
  have hext : (StatCell.read irr (twoRun irr lo hi ord ordW req reqW ops).weights.env) sumOfWeights = .val (ws as).sum := by
    rw [twoRun_weights, weights_sum reqW hirr hordW hbW hrW hkW hwne hposW, htot]
    rfl
  have h := extRead_eq hirr (lo := lo) (hi := hi) hbas hcomp hne (fun _ => hpos) hext he (hh e he ⟨r, hr, hk'.symm⟩)
    (by rw [hk']; exact h3)
  unfold TwoSets.extract
  rw [← hk', h]
  refine isStat_stat true hne (fun _ => hpos) hlim (hbas e he) ?_ ?_
  · rw [show key e.base = stdLib.tkey r from hk']; exact h1
  · rw [show key e.base = stdLib.tkey r from hk']; exact h2

include hirr hord hordW hb hbW in
/-- C83: a set with external weights and the set of the weights, fed so that every weight reaches the set of the weights
before its sample is pushed: every requested elementary statistic is that of the weighted sample. -/
theorem C83_external {ops : List (TwoOp K)} {as : List (Args K)} (hmain : ops.filterMap TwoOp.main? = as) (hne : as ≠ [])
    (hpos : ∀ a ∈ as, 0 < a.w) (hposW : ∀ w ∈ ops.filterMap TwoOp.weight?, 0 < w) (hin : Spec.InStep ops)
    (htot : (ops.filterMap TwoOp.weight?).sum = (as.map Args.w).sum)
    (hlim : ∀ a ∈ as, lo ≤ a.x ∧ a.x ≤ hi) {rW : Tag StdF} (hrW : rW ∈ reqW) (hkW : stdLib.tkey rW = sumOfWeights)
    {r : Tag StdF} (hr : r ∈ req) (h1 : stdLib.tkey r ≠ skewness) (h2 : stdLib.tkey r ≠ errorOfMean)
    (h3 : stdLib.tkey r ≠ meanOfWeights) :
    Spec.IsStat true v0 as (stdLib.tkey r)
      ((twoRun irr lo hi ord ordW req reqW ops).extract irr (stdLib.tkey r)) := by
  have hbas := basic_accumulators true hord req hb
  have hcomp := accumulators_complete stdLib_ok true hord req
  have hO := (C44_std true req .tail hord fun t ht => basic_nice true v0 _ (hb t ht)).2
  refine two_extract hirr hord hordW hb hbW hne hpos hposW htot hlim hrW hkW hr h1 h2 h3 fun u hu hm e he => ?_
  obtain ⟨s, h5, h4⟩ := runs_hold stdLib_ok (I := extImpl irr lo hi) (C42_unique stdLib_ok true hord req) hO
    (Good := GoodExt lo hi) (fun t _ => ext_init t.base) (fun t ht => ext_stepOk hirr hbas hcomp t ht) hu hm
    (seen irr lo hi ordW reqW [] ops)
  rw [runOps_pushes] at h5
  injection h5 with h5
  rw [twoRun_main]
  obtain ⟨c, h7, h6⟩ := h4 e he
  rw [← h5] at h7
  refine ⟨c, h7, fun hw => ?_⟩
  have := h6 ?_ ?_ hw
  · rwa [seen_args, hmain] at this
  · rw [seen_args, hmain]; exact fun _ => hpos
  · intro pre e post hs
    obtain ⟨opre, opost, h7, h8, h9⟩ := seen_split reqW hs
    have hsum := hin opre e.a opost h7
    rw [h9]
    dsimp only
    have hsub : ∀ w ∈ opre.filterMap TwoOp.weight?, 0 < w := fun w hw => hposW w (by
      rw [h7, List.filterMap_append]; exact List.mem_append_left _ hw)
    have hmem : ∀ a ∈ opre.filterMap TwoOp.main? ++ [e.a], 0 < a.w := fun a ha => hpos a (by
      rw [← hmain, h7]
      simp only [List.filterMap_append, List.filterMap_cons, TwoOp.main?]
      simp only [List.mem_append, List.mem_cons] at ha ⊢
      tauto)
    have htp : ((opre.filterMap TwoOp.main?).map Args.w).sum + e.a.w
        = ((opre.filterMap TwoOp.main? ++ [e.a]).map Args.w).sum := by simp
    rw [htp] at hsum
    have hwne : opre.filterMap TwoOp.weight? ≠ [] := by
      intro h
      rw [h] at hsum
      have : 0 < ((opre.filterMap TwoOp.main? ++ [e.a]).map Args.w).sum :=
        List.sum_pos _ (List.forall_mem_map.2 hmem) (by simp)
      simp only [List.sum_nil] at hsum
      exact absurd hsum this.ne
    rw [List.nil_append, weights_sum reqW hirr hordW hbW hrW hkW hwne hsub, hsum]
    simp only [List.map_append, h8, seen_args, ws, List.map_cons, List.map_nil]

theorem InStep_pairs (as : List (Args K)) : Spec.InStep (as.flatMap fun a => [.weight a.w, .main a]) := by
  intro pre a post h
  induction as generalizing pre with
  | nil => simp at h
  | cons b as ih =>
    simp only [List.flatMap_cons, List.cons_append, List.nil_append] at h
    rcases pre with _ | ⟨o, _ | ⟨o', pre⟩⟩
    · simp at h
    · simp only [List.cons_append, List.nil_append, List.cons.injEq] at h
      obtain ⟨rfl, h, -⟩ := h
      cases h
      simp [TwoOp.weight?, TwoOp.main?, List.filterMap_cons]
    · simp only [List.cons_append, List.cons.injEq] at h
      obtain ⟨rfl, rfl, h⟩ := h
      have := ih pre h
      simp only [List.filterMap_cons, TwoOp.weight?, TwoOp.main?, List.sum_cons, List.map_cons, this]
      ring

theorem pairs_main (as : List (Args K)) :
    (as.flatMap fun a => [TwoOp.weight a.w, .main a]).filterMap TwoOp.main? = as := by
  induction as with
  | nil => rfl
  | cons b as ih => simp [List.flatMap_cons, List.filterMap_cons, TwoOp.main?, ih]

theorem pairs_weight (as : List (Args K)) :
    (as.flatMap fun a => [TwoOp.weight a.w, .main a]).filterMap TwoOp.weight? = as.map Args.w := by
  induction as with
  | nil => rfl
  | cons b as ih => simp [List.flatMap_cons, List.filterMap_cons, TwoOp.weight?, ih]

include hirr hord hordW hb hbW in
/-- C83: `weight_acc(weight = w); acc(x, weight = w, weights = weight_acc);` for every sample. -/
theorem C83_weights_first {as : List (Args K)} (hne : as ≠ []) (hpos : ∀ a ∈ as, 0 < a.w)
    (hlim : ∀ a ∈ as, lo ≤ a.x ∧ a.x ≤ hi) {rW : Tag StdF} (hrW : rW ∈ reqW) (hkW : stdLib.tkey rW = sumOfWeights)
    {r : Tag StdF} (hr : r ∈ req) (h1 : stdLib.tkey r ≠ skewness) (h2 : stdLib.tkey r ≠ errorOfMean)
    (h3 : stdLib.tkey r ≠ meanOfWeights) :
    Spec.IsStat true v0 as (stdLib.tkey r)
      ((twoRun irr lo hi ord ordW req reqW (as.flatMap fun a => [.weight a.w, .main a])).extract irr (stdLib.tkey r)) :=
  C83_external hirr hord hordW hb hbW (pairs_main as) hne hpos
    (by rw [pairs_weight]; exact List.forall_mem_map.2 hpos) (InStep_pairs as) (by rw [pairs_weight]) hlim hrW hkW hr
    h1 h2 h3

/-! ## Accumulators that look at the sum of the weights only when asked -/

/-- The update of such an accumulator does not depend on the other set. -/
theorem upd_lazy {f : StdF} (hb : basic true v0 f = true) (hl : Spec.looksAhead f = false) (hw : f.isWeightAcc = false)
    {env : Env StdF (StatCell K)} {c : StatCell K} (h : env f.key = some (f, c)) (ext ext' : StdF → Res K) (a : Args K) :
    (extImpl irr lo hi).upd f env ⟨a, ext⟩ = (extImpl irr lo hi).upd f env ⟨a, ext'⟩ := by
  have h1 := overlay_of_not (ext := ext) h hw
  have h2 := overlay_of_not (ext := ext') h hw
  simp only [extImpl, hw, Bool.false_eq_true, if_false]
  cases f <;> first
    | (cases hb; done)
    | (cases hl; done)
    | (cases hw; done)
    | rfl
    | (simp only [key] at h1 h2; simp only [statImpl, StatCell.numAt, StatCell.kahanAt, StatCell.resAt,
        StatCell.countOf, h1, h2]; done)

/-- What such an accumulator should hold. -/
def GoodLazy (lo hi : K) (f : StdF) (es : List (ExtArgs K)) (c : StatCell K) : Prop :=
  Pos true (es.map ExtArgs.a) → f.isWeightAcc = false → c = ideal lo hi (es.map ExtArgs.a) f

include hirr in
theorem lazy_stepOk {S : List (Tag StdF)} (hbas : ∀ t ∈ S, basic true v0 t.base = true) (hcomp : Complete stdLib S)
    (hlazy : ∀ t ∈ S, Spec.looksAhead t.base = false) (t : Tag StdF) (ht : t ∈ S) :
    StepOk stdLib (extImpl irr lo hi) S (GoodLazy lo hi) t := by
  intro es e env hown huse hpos hw
  rw [List.map_append] at hpos ⊢
  obtain ⟨c, h1, h2⟩ := hown
  obtain ⟨a, ext⟩ := e
  rw [upd_lazy (hbas t ht) (hlazy t ht) hw h1 ext fun _ => .val (ws (es.map ExtArgs.a ++ [a])).sum]
  refine ext_step hirr hbas hcomp ht hpos rfl ⟨c, h1, fun hw => h2 hpos.init hw⟩ (fun x hx => ?_) hw
  obtain ⟨c, h1, h2⟩ := huse x hx
  refine ⟨c, h1, fun hw => ?_⟩
  have := h2 (by rw [List.map_append]; exact hpos) hw
  rwa [List.map_append] at this

include hirr hord hordW hb hbW in
/-- C83: if no accumulator of the set looks at the sum of the weights while a sample is pushed, the order in which the
two sets are fed does not matter: in the end they must agree on the total weight. -/
theorem C83_any_order (hlazy : ∀ t ∈ stdLib.accumulators true ord req, Spec.looksAhead t.base = false)
    {ops : List (TwoOp K)} {as : List (Args K)} (hmain : ops.filterMap TwoOp.main? = as) (hne : as ≠ [])
    (hpos : ∀ a ∈ as, 0 < a.w) (hposW : ∀ w ∈ ops.filterMap TwoOp.weight?, 0 < w)
    (htot : (ops.filterMap TwoOp.weight?).sum = (as.map Args.w).sum)
    (hlim : ∀ a ∈ as, lo ≤ a.x ∧ a.x ≤ hi) {rW : Tag StdF} (hrW : rW ∈ reqW) (hkW : stdLib.tkey rW = sumOfWeights)
    {r : Tag StdF} (hr : r ∈ req) (h1 : stdLib.tkey r ≠ skewness) (h2 : stdLib.tkey r ≠ errorOfMean)
    (h3 : stdLib.tkey r ≠ meanOfWeights) :
    Spec.IsStat true v0 as (stdLib.tkey r)
      ((twoRun irr lo hi ord ordW req reqW ops).extract irr (stdLib.tkey r)) := by
  have hbas := basic_accumulators true hord req hb
  have hcomp := accumulators_complete stdLib_ok true hord req
  have hO := (C44_std true req .tail hord fun t ht => basic_nice true v0 _ (hb t ht)).2
  refine two_extract hirr hord hordW hb hbW hne hpos hposW htot hlim hrW hkW hr h1 h2 h3 fun u hu hm e he => ?_
  obtain ⟨s, h5, h4⟩ := runs_hold stdLib_ok (I := extImpl irr lo hi) (C42_unique stdLib_ok true hord req) hO
    (Good := GoodLazy lo hi)
    (fun t _ _ hw => ext_init (irr := irr) t.base (fun _ a ha => by cases ha) (fun pre e post h => by simp at h) hw)
    (fun t ht => lazy_stepOk hirr hbas hcomp hlazy t ht) hu hm (seen irr lo hi ordW reqW [] ops)
  rw [runOps_pushes] at h5
  injection h5 with h5
  rw [twoRun_main]
  obtain ⟨c, h7, h6⟩ := h4 e he
  rw [← h5] at h7
  refine ⟨c, h7, fun hw => ?_⟩
  have := h6 (by rw [seen_args, hmain]; exact fun _ => hpos) hw
  rwa [seen_args, hmain] at this

/-! ## The accumulators for weights -/

include hord hb in
/-- C83: asked for a statistic of the weights alone, the set with external weights answers what the set of the weights
answers, however the two were fed. -/
theorem C83_weights_alone {ops : List (TwoOp K)} {r : Tag StdF} (hr : r ∈ req) (hw : r.base.isWeightAcc = true) :
    (twoRun irr lo hi ord ordW req reqW ops).extract irr (stdLib.tkey r)
      = statRun irr lo hi true ordW reqW ((ops.filterMap TwoOp.weight?).map onlyWeight) (stdLib.tkey r) := by
  have hO := (C44_std true req .tail hord fun t ht => basic_nice true v0 _ (hb t ht)).2
  have hr' : (⟨r.base.weighted, r.drop⟩ : Tag StdF) ∈ stdLib.asList true req := List.mem_map.2 ⟨r, hr, rfl⟩
  obtain ⟨e, ⟨he, hk⟩, -⟩ := (C42_closure stdLib_ok true hord req).1 _ hr'
  have hk' : stdLib.tkey e = stdLib.tkey r := hk.trans (stdLib_ok.weighted_key _)
  obtain ⟨s, h5, h4⟩ := runs_hold stdLib_ok (I := extImpl irr lo hi) (C42_unique stdLib_ok true hord req) hO
    (Good := fun _ _ _ => True) (fun _ _ => trivial) (fun _ _ _ _ _ _ _ => trivial) he ⟨r, hr, hk'.symm⟩
    (seen irr lo hi ordW reqW [] ops)
  rw [runOps_pushes] at h5
  injection h5 with h5
  obtain ⟨c, h7, -⟩ := h4 e (Or.inl rfl)
  rw [← h5] at h7
  have hwe : e.base.isWeightAcc = true := by
    have h8 := hk'
    obtain ⟨f, b⟩ := r
    obtain ⟨g, b'⟩ := e
    clear h7 h5 h4 hr hr' he hk hk'
    cases f <;> first | (cases hw; done) | skip
    all_goals (cases g <;> first | rfl | (cases h8; done))
  have hkey : e.base.key = stdLib.tkey r := hk'
  unfold TwoSets.extract extRead
  rw [twoRun_main]
  dsimp only at h7
  rw [← hk', h7]
  dsimp only
  rw [if_pos hwe, twoRun_weights]
  rfl

end

/-! ## Examples, and what goes wrong otherwise -/

section
open TwoOp

def extIrr : StdF → ℕ → (StdF → Res ℚ) → Res ℚ := fun _ _ _ => .ub

/-- The samples of `test/external_weights.cpp`. -/
def extAs : List (Args ℚ) := [⟨10, 2, fun _ => 0⟩, ⟨6, 3, fun _ => 0⟩, ⟨4, 4, fun _ => 0⟩, ⟨6, 5, fun _ => 0⟩]

/-- The order of `test/external_weights.cpp`: each sample before its weight. -/
def samplesFirst {K : Type} (as : List (Args K)) : List (TwoOp K) := as.flatMap fun a => [.main a, .weight a.w]

def extRun (f : StdF) (ops : List (TwoOp ℚ)) : Res ℚ :=
  (twoRun extIrr (-1000) 1000 id id [⟨f, false⟩] [⟨sumOfWeights, false⟩] ops).extract extIrr f.key

/-- C83: fed in the order of `test/external_weights.cpp` (or with all the weights first), the features that look at the
sum of the weights while a sample is pushed are wrong: the weighted mean of these samples is 6, their variance 24/7. -/
theorem C83_wrong_order :
    extRun immediateWeightedMean (samplesFirst extAs) = .nonfinite ∧
    extRun weightedVariance (samplesFirst extAs) = .nonfinite ∧
    extRun immediateWeightedMean (extAs.map (fun a => .weight a.w) ++ extAs.map .main) = .val (9564 / 2401) ∧
    extRun weightedMean (samplesFirst extAs) = .val 6 ∧
    extRun weightedMean (extAs.map (fun a => .weight a.w) ++ extAs.map .main) = .val 6 ∧
    extRun immediateWeightedMean (extAs.flatMap fun a => [.weight a.w, .main a]) = .val 6 ∧
    extRun weightedVariance (extAs.flatMap fun a => [.weight a.w, .main a]) = .val (24 / 7) := by
  decide +kernel

-- the hypotheses of `C83_any_order` and `C83_external`
example : ∀ t ∈ stdLib.accumulators true id [⟨weightedMean, false⟩, ⟨weightedKurtosis, false⟩, ⟨sum, true⟩],
    Spec.looksAhead t.base = false := by decide +kernel
example : ∀ t ∈ stdLib.asList true [⟨immediateWeightedMean, false⟩, ⟨weightedVariance, false⟩, ⟨weightedCovariance 0, true⟩,
    ⟨meanOfWeights, false⟩], basic true 0 t.base = true := by decide +kernel
example : (samplesFirst extAs).filterMap TwoOp.main? = extAs ∧
    ((samplesFirst extAs).filterMap TwoOp.weight?).sum = (extAs.map Args.w).sum := by
  refine ⟨rfl, ?_⟩
  decide +kernel
example : extAs ≠ [] ∧ (∀ a ∈ extAs, 0 < a.w) ∧ ∀ a ∈ extAs, -1000 ≤ a.x ∧ a.x ≤ 1000 := by
  refine ⟨by simp [extAs], ?_, ?_⟩ <;> simp [extAs] <;> norm_num
end

end Acc
