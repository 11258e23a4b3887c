import Verif.Proofs.ScaleTail
import Verif.Props.Scale

/-!
# C100: extremes, tails and weighted medians under a change of units

A positive factor keeps the order of the samples, a negative one exchanges minimum and maximum, left and right tail.
-/

set_option linter.unusedSectionVars false

namespace Acc

variable {K : Type} [Field K] [LinearOrder K] [IsStrictOrderedRing K] {R : Rounding K} {s t u : K}

/-! ### Minimum and maximum -/

theorem scaled_ltb_pos (hs : 0 < s) {a b a' b' : Fl R} (h : Scaled s a b) (k : Scaled s a' b') : ltb b b' = ltb a a' :=
  decide_eq_decide.2 (Scaled.lt_iff_pos hs h k)

theorem scaled_ltb_neg (hs : s < 0) {a b a' b' : Fl R} (h : Scaled s a b) (k : Scaled s a' b') : ltb b b' = ltb a' a := by
  refine decide_eq_decide.2 ?_
  show b.val < b'.val ↔ a'.val < a.val
  rw [h, k, mul_lt_mul_left_of_neg hs]

theorem scaled_minRun (hs : 0 < s) {l m : List (Fl R)} (h : List.Forall₂ (Scaled s) l m) {a b : Fl R} (k : Scaled s a b) :
    Scaled s (minRun ltb a l) (minRun ltb b m) := by
  refine foldl_rel (fun a b x y h k => ?_) h k
  unfold minAssign
  rw [scaled_ltb_pos hs k h]
  split_ifs <;> assumption

theorem scaled_maxRun (hs : 0 < s) {l m : List (Fl R)} (h : List.Forall₂ (Scaled s) l m) {a b : Fl R} (k : Scaled s a b) :
    Scaled s (maxRun ltb a l) (maxRun ltb b m) := by
  refine foldl_rel (fun a b x y h k => ?_) h k
  unfold maxAssign
  rw [scaled_ltb_pos hs h k]
  split_ifs <;> assumption

theorem scaled_minRun_maxRun (hs : s < 0) {l m : List (Fl R)} (h : List.Forall₂ (Scaled s) l m) {a b : Fl R} (k : Scaled s a b) :
    Scaled s (minRun ltb a l) (maxRun ltb b m) := by
  refine foldl_rel (fun a b x y h k => ?_) h k
  unfold minAssign maxAssign
  rw [scaled_ltb_neg hs h k]
  split_ifs <;> assumption

theorem scaled_maxRun_minRun (hs : s < 0) {l m : List (Fl R)} (h : List.Forall₂ (Scaled s) l m) {a b : Fl R} (k : Scaled s a b) :
    Scaled s (maxRun ltb a l) (minRun ltb b m) := by
  refine foldl_rel (fun a b x y h k => ?_) h k
  unfold minAssign maxAssign
  rw [scaled_ltb_neg hs k h]
  split_ifs <;> assumption

theorem minRun_cons_of_le {hi x : Fl R} (h : x ≤ hi) (xs : List (Fl R)) : minRun ltb hi (x :: xs) = minRun ltb x xs := by
  unfold minRun
  rw [List.foldl_cons]
  congr 1
  unfold minAssign ltb
  by_cases c : x < hi
  · simp [c]
  · simp only [c, decide_false, Bool.false_eq_true, if_false]
    exact le_antisymm (not_lt.1 c) h

theorem maxRun_cons_of_le {lo x : Fl R} (h : lo ≤ x) (xs : List (Fl R)) : maxRun ltb lo (x :: xs) = maxRun ltb x xs := by
  unfold maxRun
  rw [List.foldl_cons]
  congr 1
  unfold maxAssign ltb
  by_cases c : lo < x
  · simp [c]
  · simp only [c, decide_false, Bool.false_eq_true, if_false]
    exact le_antisymm h (not_lt.1 c)

/-- **C100** Minimum and maximum of at least one sample; `lo` and `hi` are the limits of the type. -/
theorem C100_extremes (hs : R.Exact s) (lo hi x : Fl R) (xs : List (Fl R)) (hx : lo ≤ x ∧ x ≤ hi)
    (hy : lo ≤ Fl.scale s x ∧ Fl.scale s x ≤ hi) :
    (0 < s → minRun ltb hi ((x :: xs).map (Fl.scale s)) = Fl.scale s (minRun ltb hi (x :: xs)) ∧
      maxRun ltb lo ((x :: xs).map (Fl.scale s)) = Fl.scale s (maxRun ltb lo (x :: xs))) ∧
    (s < 0 → minRun ltb hi ((x :: xs).map (Fl.scale s)) = Fl.scale s (maxRun ltb lo (x :: xs)) ∧
      maxRun ltb lo ((x :: xs).map (Fl.scale s)) = Fl.scale s (minRun ltb hi (x :: xs))) := by
  have hl := forall₂_map_scale hs xs
  have hx0 := scaled_scale hs x
  rw [List.map_cons, minRun_cons_of_le hy.2, minRun_cons_of_le hx.2, maxRun_cons_of_le hy.1, maxRun_cons_of_le hx.1]
  exact ⟨fun h0 => ⟨(scaled_minRun h0 hl hx0).eq hs, (scaled_maxRun h0 hl hx0).eq hs⟩,
    fun h0 => ⟨(scaled_maxRun_minRun h0 hl hx0).eq hs, (scaled_minRun_maxRun h0 hl hx0).eq hs⟩⟩

/-! ### The tail -/

section
variable {V : Type}

theorem tailOp_mapPush {q : V → V → Prop} {f : V → V} (hs : R.Exact s) (hf : ∀ v, q v (f v)) (h : List (Op (Fl R × V) Unit)) :
    List.Forall₂ (TailOp (Scaled s) q) h (h.map (Op.mapPush fun x => (Fl.scale s x.1, f x.2))) := by
  induction h with
  | nil => exact .nil
  | cons o h ih =>
    cases o with
    | push x => exact .cons ⟨scaled_scale hs x.1, hf x.2⟩ ih
    | query k => exact .cons trivial ih

/-- The factor keeps the tail or exchanges it for the other one. -/
def SideFor (s : K) (side side' : Side) : Prop := (0 < s ∧ side' = side) ∨ (s < 0 ∧ side' = side.other)

theorem SideFor.pred {side side' : Side} (h : SideFor s side side') : PredRel (Scaled (R := R) s) side side' := by
  rcases h with ⟨h, rfl⟩ | ⟨h, rfl⟩
  · exact predRel_pos h _
  · exact predRel_neg h side

/-- **C100** The tail, and what was cached along with it, after any history and whatever the heap: a positive factor keeps the
tail, a negative one exchanges it for the other tail. -/
theorem C100_tail (hs : R.Exact s) {side side' : Side} (h0 : SideFor s side side') (H : HeapImpl ℕ) (k : ℕ) (x0 : Fl R) (v0 : V)
    (h : List (Op (Fl R × V) Unit)) :
    let h' := h.map (Op.mapPush fun x => (Fl.scale s x.1, x.2))
    extractTail H side' k (Fl.scale s x0) v0 h' = List.map (Fl.scale s) <$> extractTail H side k x0 v0 h ∧
    extractTailVariate H side' k (Fl.scale s x0) v0 h' = extractTailVariate H side k x0 v0 h := by
  have hh := tailOp_mapPush (q := (· = ·)) (f := id) hs (fun _ => rfl) h
  refine ⟨(rel_extractTail H h0.pred (scaled_scale hs x0) (rfl : v0 = v0) k hh).map_eq fun _ _ h => eq_map_of_forall₂ (fun _ _ h => h.eq hs) h,
    ?_⟩
  have := (rel_extractTailVariate H h0.pred (scaled_scale hs x0) (rfl : v0 = v0) k hh).map_eq (f := id)
    fun _ _ h => (List.forall₂_eq_eq_eq ▸ h : _ = _).symm
  refine this.trans ?_
  cases extractTailVariate H side k x0 v0 h <;> rfl

variable [FloorRing K]

theorem tailN_congr {side side' : Side} {p p' : Fl R} (hp : tailLevel side p = tailLevel side' p') (n : ℕ) :
    tailN side n p = tailN side' n p' := by
  unfold tailN
  rw [hp]

/-- **C100** The tail quantile and the tail mean.  With a negative factor the left tail answers for the right one, at the
level that belongs to it. -/
theorem C100_tail_quantile (hs : R.Exact s) {side side' : Side} (h0 : SideFor s side side') {p p' : Fl R}
    (hp : tailLevel side p = tailLevel side' p') (H : HeapImpl ℕ) (nan : Bool) (k : ℕ) (x0 : Fl R) (v0 : V)
    (h : List (Op (Fl R × V) Unit)) :
    let h' := h.map (Op.mapPush fun x => (Fl.scale s x.1, x.2))
    tailQuantile H side' nan k (Fl.scale s x0) v0 h' p' = Fl.scale s <$> tailQuantile H side nan k x0 v0 h p ∧
    nonCoherentTailMean H side' nan k (Fl.scale s x0) v0 h' p' = Fl.scale s <$> nonCoherentTailMean H side nan k x0 v0 h p := by
  have hh := tailOp_mapPush (q := (· = ·)) (f := id) hs (fun _ => rfl) h
  have hr := tailRel_run H h0.pred (scaled_scale hs x0) (rfl : v0 = v0) k hh
  have e := tailN_congr hp (pushes h).length
  rw [show (pushes h).length = _ from length_pushes_tailOp hh] at e
  constructor <;> refine Res.Lift.eq_map hs ?_
  · unfold tailQuantile
    rw [length_pushes_tailOp hh]
    refine hr.bind fun a b hab => ?_
    rw [e]
    refine (Lift_eq_refl _).bind fun n _ en => ?_
    subst en
    exact (rel_tailResult H h0.pred hab).bind fun _ _ ht => scaled_tailQuantileResult nan n ht
  · unfold nonCoherentTailMean
    rw [length_pushes_tailOp hh]
    refine hr.bind fun a b hab => ?_
    rw [e]
    refine (Lift_eq_refl _).bind fun n _ en => ?_
    subst en
    exact (rel_tailResult H h0.pred hab).bind fun _ _ ht => scaled_nonCoherentTailMeanResult hs nan n ht

/-- **C100** The coherent tail mean, for a positive factor. -/
theorem C100_coherent (hs : R.Exact s) (h0 : 0 < s) (side : Side) (p : Fl R) (H : HeapImpl ℕ) (nan : Bool) (k : ℕ) (x0 : Fl R)
    (v0 : V) (h : List (Op (Fl R × V) Unit)) :
    coherentTailMean H side nan k (Fl.scale s x0) v0 (h.map (Op.mapPush fun x => (Fl.scale s x.1, x.2))) p
      = Fl.scale s <$> coherentTailMean H side nan k x0 v0 h p := by
  have hh := tailOp_mapPush (q := (· = ·)) (f := id) hs (fun _ => rfl) h
  have hp := predRel_pos (R := R) h0 side
  refine Res.Lift.eq_map hs ?_
  unfold coherentTailMean
  rw [length_pushes_tailOp hh]
  refine (tailRel_run H hp (scaled_scale hs x0) (rfl : v0 = v0) k hh).bind fun a b hab => ?_
  refine (Lift_eq_refl _).bind fun n _ en => ?_
  subst en
  exact (rel_tailResult H hp hab).bind fun _ _ ht => scaled_coherentTailMeanOf hs side _ n p
    (scaled_nonCoherentTailMeanResult hs nan n ht) (scaled_tailQuantileResult nan n ht)

end

theorem forall₂_vec (hu : R.Exact u) (v : List (Fl R)) : List.Forall₂ (Scaled u) v (v.map (Fl.scale u)) := forall₂_map_scale hu v

/-- **C100** The tail variate means: they have the units of the variates, the relative ones those of the quotient. -/
theorem C100_variate_means [FloorRing K] (hs : R.Exact s) (hu : R.Exact u) {side side' : Side} (h0 : SideFor s side side')
    {p p' : Fl R} (hp : tailLevel side p = tailLevel side' p') (H : HeapImpl ℕ) (relative nan : Bool) (k : ℕ) (x0 : Fl R)
    (v0 : List (Fl R)) (h : List (Op (Fl R × List (Fl R)) Unit)) :
    tailVariateMeans H side' relative nan k (Fl.scale s x0) (v0.map (Fl.scale u))
        (h.map (Op.mapPush fun x => (Fl.scale s x.1, x.2.map (Fl.scale u)))) p'
      = List.map (Fl.scale (if relative then u / s else u)) <$> tailVariateMeans H side relative nan k x0 v0 h p := by
  have hh := tailOp_mapPush (q := List.Forall₂ (Scaled u)) (f := List.map (Fl.scale u)) hs (forall₂_vec hu) h
  have hx : R.Exact (if relative then u / s else u) := by cases relative <;> simp [hu, hu.div hs]
  have e := tailN_congr hp (pushes h).length
  rw [show (pushes h).length = _ from length_pushes_tailOp hh] at e
  refine Res.Lift.map_eq (r := List.Forall₂ (Scaled (if relative then u / s else u)))
    (fun _ _ h => eq_map_of_forall₂ (fun _ _ h => Scaled.eq hx h) h) ?_
  unfold tailVariateMeans
  rw [length_pushes_tailOp hh]
  refine (tailRel_run H h0.pred (scaled_scale hs x0) (forall₂_vec hu v0) k hh).bind fun a b hab => ?_
  rw [e]
  refine (Lift_eq_refl _).bind fun n _ en => ?_
  subst en
  exact (rel_tailResult H h0.pred hab).bind fun _ _ ht => (rel_tailVariateResult H h0.pred hab).bind fun _ _ hv =>
    scaled_tailVariateMeansOf hs hu relative nan n (scaled_nonCoherentTailMeanResult hs nan n ht) ht hv

/-! ### With weights -/

theorem scaled_wtailThreshold (ht : R.Exact t) {side side' : Side} {p p' : Fl R} (hp : tailLevel side p = tailLevel side' p')
    {l m : List (Fl R)} (h : List.Forall₂ (Scaled t) l m) : Scaled t (wtailThreshold side l p) (wtailThreshold side' m p') := by
  unfold wtailThreshold
  rw [hp]
  exact (scaled_foldl_add ht h Scaled.zero).mul_self ht _

/-- **C100** The weighted tail quantile and tail mean have the units of the samples; the units of the weights do not matter. -/
theorem C100_weighted_tail (hs : R.Exact s) (ht : R.Exact t) (ht0 : 0 < t) {side side' : Side} (h0 : SideFor s side side')
    {p p' : Fl R} (hp : tailLevel side p = tailLevel side' p') (H : HeapImpl ℕ) (nan : Bool) (k : ℕ) (x0 w0 : Fl R)
    (h : List (Op (Fl R × Fl R) Unit)) :
    let h' := h.map (Op.mapPush (scale2 s t))
    wtailQuantile H side' nan id k (Fl.scale s x0) (Fl.scale t w0) h' p' = Fl.scale s <$> wtailQuantile H side nan id k x0 w0 h p ∧
    wtailMean H side' nan id k (Fl.scale s x0) (Fl.scale t w0) h' p' = Fl.scale s <$> wtailMean H side nan id k x0 w0 h p := by
  have hh := tailOp_mapPush (q := Scaled t) (f := Fl.scale t) hs (scaled_scale ht) h
  have hth := scaled_wtailThreshold ht hp (map_pushes_tailOp (p := Scaled t) (f := id) (f' := id) (fun _ _ h => h) hh)
  have hr := tailRel_run H h0.pred (scaled_scale hs x0) (scaled_scale ht w0) k hh
  constructor <;> refine Res.Lift.eq_map hs ?_
  · exact hr.bind fun _ _ hab => (rel_tailResult H h0.pred hab).bind fun _ _ hl =>
      (rel_tailVariateResult H h0.pred hab).bind fun _ _ hv =>
        scaled_wtailQuantileResult ht ht0 nan hth hl (by simpa using hv)
  · exact hr.bind fun _ _ hab => (rel_tailResult H h0.pred hab).bind fun _ _ hl =>
      (rel_tailVariateResult H h0.pred hab).bind fun _ _ hv =>
        scaled_wtailMeanResult hs ht ht0 nan hth hl (by simpa using hv)

/-- **C100** The weighted tail variate means. -/
theorem C100_weighted_variate_means (hs : R.Exact s) (hu : R.Exact u) (ht : R.Exact t) (ht0 : 0 < t) {side side' : Side}
    (h0 : SideFor s side side') {p p' : Fl R} (hp : tailLevel side p = tailLevel side' p') (H : HeapImpl ℕ)
    (relative nan : Bool) (k : ℕ) (x0 : Fl R) (v0 : List (Fl R) × Fl R) (h : List (Op (Fl R × (List (Fl R) × Fl R)) Unit)) :
    let f := fun v : List (Fl R) × Fl R => (v.1.map (Fl.scale u), Fl.scale t v.2)
    wtailVariateMeans H side' relative nan k (Fl.scale s x0) (f v0) (h.map (Op.mapPush fun x => (Fl.scale s x.1, f x.2))) p'
      = List.map (Fl.scale (if relative then u / s else u)) <$> wtailVariateMeans H side relative nan k x0 v0 h p := by
  intro f
  have hf : ∀ v : List (Fl R) × Fl R, List.Forall₂ (Scaled u) v.1 (f v).1 ∧ Scaled t v.2 (f v).2 :=
    fun v => ⟨forall₂_vec hu v.1, scaled_scale ht v.2⟩
  have hh := tailOp_mapPush (q := fun v w : List (Fl R) × Fl R => List.Forall₂ (Scaled u) v.1 w.1 ∧ Scaled t v.2 w.2)
    (f := f) hs hf h
  have hx : R.Exact (if relative then u / s else u) := by cases relative <;> simp [hu, hu.div hs]
  have hth := scaled_wtailThreshold ht hp (map_pushes_tailOp (p := Scaled t) (f := Prod.snd) (f' := Prod.snd)
    (fun _ _ h => h.2) hh)
  refine Res.Lift.map_eq (r := List.Forall₂ (Scaled (if relative then u / s else u)))
    (fun _ _ h => eq_map_of_forall₂ (fun _ _ h => Scaled.eq hx h) h) ?_
  refine (tailRel_run (q := fun v w : List (Fl R) × Fl R => List.Forall₂ (Scaled u) v.1 w.1 ∧ Scaled t v.2 w.2)
    H h0.pred (scaled_scale hs x0) (hf v0) k hh).bind fun _ _ hab =>
    (rel_tailResult H h0.pred hab).bind fun _ _ hl => (rel_tailVariateResult H h0.pred hab).bind fun v w hv => ?_
  have h1 : List.Forall₂ (List.Forall₂ (Scaled u)) (v.map Prod.fst) (w.map Prod.fst) := by
    rw [List.forall₂_map_left_iff, List.forall₂_map_right_iff]
    exact hv.imp fun _ _ h => h.1
  have h2 : List.Forall₂ (Scaled t) (v.map Prod.snd) (w.map Prod.snd) := by
    rw [List.forall₂_map_left_iff, List.forall₂_map_right_iff]
    exact hv.imp fun _ _ h => h.2
  exact scaled_wtailVariateMeansOf hs hu ht ht0 relative nan hth (scaled_wtailMeanResult hs ht ht0 nan hth hl h2) h1 h2

/-! ### Weighted medians -/

/-- Related states of two weighted cumulative distributions. -/
def WCumulRel (s : K) (a b : WPsqCumulSt (Fl R)) : Prop := WPsqRel s a.m b.m ∧ HistRel s a.hist b.hist ∧ a.dirty = b.dirty

theorem wcumulRel_init (b : ℕ) : WCumulRel s (wpsqCumulSet (K := Fl R) b).init (wpsqCumulSet b).init :=
  ⟨wpsqRel_init _, forall₂_replicate ⟨Scaled.zero, rfl⟩ _, rfl⟩

theorem wcumulRel_push (hs : R.Exact s) (h0 : 0 < s) (n : ℕ) {a b : WPsqCumulSt (Fl R)} (h : WCumulRel s a b)
    {x y : Fl R × Fl R} (k : PairRel s x y) : Res.Lift (WCumulRel s) ((wpsqCumulSet n).push a x) ((wpsqCumulSet n).push b y) :=
  (wpsqRel_push hs h0 _ _ _ h.1 k).bind fun _ _ hd => show Res.Lift (WCumulRel s) (.val _) (.val _) from ⟨hd, h.2.1, rfl⟩

theorem wcumulRel_query (n : ℕ) {a b : WPsqCumulSt (Fl R)} (h : WCumulRel s a b) :
    Res.Lift (fun u v : WPsqCumulSt (Fl R) × List (Fl R × Res (Fl R)) => WCumulRel s u.1 v.1 ∧ HistRel s u.2 v.2)
      ((wpsqCumulSet n).query a ()) ((wpsqCumulSet n).query b ()) := by
  unfold wpsqCumulSet
  dsimp only
  rw [← h.2.2, ← h.1.pos, ← h.1.wsum]
  by_cases c : a.dirty = true
  · rw [if_pos c, if_pos c]
    exact (scaled_psqHist h.1.heights _ _).bind fun _ _ hh => show Res.Lift _ (.val _) (.val _) from ⟨⟨h.1, hh, rfl⟩, hh⟩
  · rw [if_neg c, if_neg c]
    exact ⟨h, h.2.1⟩

theorem scaled_wcmedianSet (hs : R.Exact s) (h0 : 0 < s) (b : ℕ) {h g : List (Op (Fl R × Fl R) Unit)}
    (hh : List.Forall₂ (Op.Rel (PairRel s)) h g) : Res.Lift (Scaled s) ((wcmedianSet b).answer h ()) ((wcmedianSet b).answer g ()) := by
  refine RMachine.answer_rel (M := wcmedianSet b) (N := wcmedianSet b)
    (r := fun a b : WCMedianSt (Fl R) => WCumulRel s a.dist b.dist ∧ a.dirty = b.dirty ∧ Scaled s a.median b.median)
    ⟨wcumulRel_init b, rfl, Scaled.zero⟩ ?_ ?_ hh ()
  · intro _ _ _ _ h k
    exact (wcumulRel_push hs h0 b h.1 k).bind fun _ _ hd => show Res.Lift _ (.val _) (.val _) from ⟨hd, rfl, h.2.2⟩
  · intro u v _ h
    unfold wcmedianSet
    dsimp only
    rw [← h.2.1]
    by_cases c : u.dirty = true
    · rw [if_pos c, if_pos c]
      exact (wcumulRel_query b h.1).bind fun _ _ hr => (scaled_cumulMedianBody hs hr.2).bind fun _ _ hm =>
        show Res.Lift _ (.val _) (.val _) from ⟨⟨hr.1, rfl, hm⟩, hm⟩
    · rw [if_neg c, if_neg c]
      exact ⟨h, h.2.2⟩

theorem scaled_wdmedianSet (hs : R.Exact s) (h0 : 0 < s) (lo hi : Fl R) (c n : ℕ) {h g : List (Op (Fl R × Fl R) Unit)}
    (hh : List.Forall₂ (Op.Rel fun p q => InRange s lo hi p.1 q.1 ∧ p.2 = q.2) h g) :
    Res.Lift (Scaled s) ((wdmedianSet lo hi c n 0).answer h ()) ((wdmedianSet lo hi c n 0).answer g ()) := by
  refine RMachine.answer_rel (M := wdmedianSet lo hi c n 0) (N := wdmedianSet lo hi c n 0)
    (r := fun a b : WDMedianSt (Fl R) => WDensRel s lo hi a.dens b.dens ∧ a.sum = b.sum ∧ a.dirty = b.dirty ∧
      Scaled s a.median b.median) ⟨wdensRel_init lo hi c n, rfl, rfl, Scaled.zero⟩ ?_ ?_ hh ()
  · intro _ _ _ _ h k
    exact (wdensRel_push hs h0 h.1 k).bind fun _ _ hd => show Res.Lift _ (.val _) (.val _) from ⟨hd, h.2.1, rfl, h.2.2.2⟩
  · intro u v _ h
    unfold wdmedianSet
    dsimp only
    rw [← h.2.2.1, ← h.2.1, ← h.1.cnt]
    by_cases c : u.dirty = true
    · rw [if_pos c, if_pos c]
      exact (wdensRel_query h.1).bind fun _ _ hr => (scaled_densityMedianBody hs _ _ hr.2).bind fun _ _ hm =>
        show Res.Lift _ (.val _) (.val _) from ⟨⟨hr.1, hm.1, rfl, hm.2⟩, hm.2⟩
    · rw [if_neg c, if_neg c]
      exact ⟨h, h.2.2.2⟩

/-- **C100** The weighted medians from the cumulative distribution and from the histogram. -/
theorem C100_weighted_medians (hs : R.Exact s) (h0 : 0 < s) (b : ℕ) (lo hi : Fl R) (c n : ℕ) (h : List (Op (Fl R × Fl R) Unit)) :
    let h' := h.map (Op.mapPush fun x => (Fl.scale s x.1, x.2))
    (wcmedianSet b).answer h' () = Fl.scale s <$> (wcmedianSet b).answer h () ∧
    ((∀ x ∈ pushes h, (lo ≤ x.1 ∧ x.1 ≤ hi) ∧ (lo ≤ Fl.scale s x.1 ∧ Fl.scale s x.1 ≤ hi)) →
      (wdmedianSet lo hi c n 0).answer h' () = Fl.scale s <$> (wdmedianSet lo hi c n 0).answer h ()) := by
  have h1 : List.Forall₂ (Op.Rel (PairRel s)) h (h.map (Op.mapPush fun x => (Fl.scale s x.1, x.2))) :=
    forall₂_mapPush fun x _ => ⟨scaled_scale hs x.1, rfl⟩
  refine ⟨(scaled_wcmedianSet hs h0 b h1).eq_map hs, fun hr => ?_⟩
  have h2 : List.Forall₂ (Op.Rel fun p q => InRange s lo hi p.1 q.1 ∧ p.2 = q.2) h
      (h.map (Op.mapPush fun x => (Fl.scale s x.1, x.2))) :=
    forall₂_mapPush fun x hx => ⟨⟨scaled_scale hs x.1, hr x hx⟩, rfl⟩
  exact (scaled_wdmedianSet hs h0 lo hi c n h2).eq_map hs

/-- **C100, the coherent tail mean** A change of sign does not turn the coherent mean of one tail into that of the other: the
correction terms of the two tails are different expressions (`tail_mean.hpp:83-88`). -/
theorem C100_coherent_mirror_fails :
    let f := Fl.scale (R := double) (-2 ^ (0 : ℤ))
    let h : List (Op (Fl double × Unit) Unit) := [.push (4, ()), .push (3, ()), .push (2, ()), .push (1, ())]
    let h' := h.map (Op.mapPush fun x => (f x.1, x.2))
    coherentTailMean HeapImpl.simple .right true 3 0 () h (1 / 2) = .val (7 / 2) ∧
    coherentTailMean HeapImpl.simple .left true 3 (f 0) () h' (1 / 2) = .val (-(17 / 4)) := by
  decide +kernel

/-! ### Non-vacuity -/

/-- The right tail of the samples is the left tail of the negated ones. -/
example :
    let f := Fl.scale (R := double) (-2 ^ (0 : ℤ))
    let h : List (Op (Fl double × Unit) Unit) := [.push (5, ()), .push (3, ()), .query (), .push (9, ()), .push (1, ()), .push (7, ())]
    let h' := h.map (Op.mapPush fun x => (f x.1, x.2))
    extractTail HeapImpl.simple .left 3 (f 0) () h' = List.map f <$> extractTail HeapImpl.simple .right 3 0 () h ∧
    extractTail HeapImpl.simple .right 3 0 () h = .val [9, 7, 5] ∧ f 9 = -9 ∧
    tailQuantile HeapImpl.simple .left true 3 (f 0) () h' (1 / 4)
      = f <$> tailQuantile HeapImpl.simple .right true 3 0 () h (3 / 4) ∧
    tailQuantile HeapImpl.simple .right true 3 0 () h (3 / 4) = .val 7 := by
  have hs := (C99_factors 53 (by norm_num) 0).2.1
  have h0 : SideFor (-2 ^ (0 : ℤ) : ℚ) .right .left := .inr ⟨by norm_num, rfl⟩
  exact ⟨(C100_tail hs h0 _ 3 0 () _).1, by decide +kernel, by decide +kernel,
    (C100_tail_quantile hs h0 (by decide +kernel) _ true 3 0 () _).1, by decide +kernel⟩

/-- Minimum and maximum of samples in other units. -/
example :
    let f := Fl.scale (R := double) (-2 ^ (1 : ℤ))
    minRun ltb 1000 ([5, 3, 9].map f) = f (maxRun ltb (-1000) [5, 3, 9]) ∧ maxRun ltb (-1000) [(5 : Fl double), 3, 9] = 9 :=
  ⟨((C100_extremes (C99_factors 53 (by norm_num) 1).2.1 (-1000) 1000 5 [3, 9] (by decide +kernel) (by decide +kernel)).2
    (by norm_num)).1, by decide +kernel⟩

/-- Weighted tail mean in other units of samples and weights. -/
example :
    let h : List (Op (Fl double × Fl double) Unit) := [.push (5, 1), .push (3, 2), .push (9, 1), .push (1, 4), .push (7, 2)]
    let h' := h.map (Op.mapPush (scale2 (2 ^ (10 : ℤ)) (2 ^ (-1 : ℤ))))
    wtailMean HeapImpl.simple .left true id 4 (Fl.scale (2 ^ (10 : ℤ)) 0) (Fl.scale (2 ^ (-1 : ℤ)) 0) h' (1 / 2)
      = Fl.scale (2 ^ (10 : ℤ)) <$> wtailMean HeapImpl.simple .left true id 4 0 0 h (1 / 2) ∧
    wtailMean HeapImpl.simple .left true id 4 0 0 h (1 / 2) = .val (10 / 6) :=
  ⟨(C100_weighted_tail (C99_factors 53 (by norm_num) 10).1 (C99_factors 53 (by norm_num) (-1)).1 (by positivity)
    (.inl ⟨by positivity, rfl⟩) rfl _ true 4 0 0 _).2, by decide +kernel⟩

end Acc
