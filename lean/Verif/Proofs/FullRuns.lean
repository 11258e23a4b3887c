import Verif.Proofs.FullTail
import Verif.Proofs.Median
import Verif.Proofs.Round

/-!
# The sets of a single estimator, one push at a time

The members that remember `count`, `min`, `max` and `sum_of_weights` hold what these accumulators return.
-/

set_option linter.unusedSectionVars false

namespace Acc

/-- Whatever comes to an end satisfies the invariant. -/
theorem RMachine.bind_congr {X Q S R T : Type} (M : RMachine X Q S R) (I : S → List X → Prop)
    (h0 : I M.init []) (hpush : ∀ s xs x s', I s xs → M.push s x = .val s' → I s' (xs ++ [x])) (xs : List X)
    {f g : S → Res T} (h : ∀ s, I s xs → f s = g s) :
    (M.exec M.init (onlyPushes xs)).bind f = (M.exec M.init (onlyPushes xs)).bind g := by
  have hI : ∀ xs s, M.exec M.init (onlyPushes xs) = .val s → I s xs := by
    intro xs
    induction xs using List.reverseRecOn with
    | nil =>
      intro s hs
      injection hs with hs
      rw [← hs]
      exact h0
    | append_singleton xs x ih =>
      intro s hs
      rw [RMachine.exec_snoc] at hs
      cases he : M.exec M.init (onlyPushes xs) with
      | val s0 =>
        rw [he] at hs
        exact hpush s0 xs x s (ih s0 he) hs
      | _ => rw [he] at hs; cases hs
  cases he : M.exec M.init (onlyPushes xs) with
  | val s => exact h s (hI xs s he)
  | _ => rfl

variable {K : Type} [Field K] [LinearOrder K] [IsStrictOrderedRing K]

theorem minRun_snoc (hi : K) (xs : List K) (x : K) :
    minRun ltb hi (xs ++ [x]) = minAssign ltb (minRun ltb hi xs) x := by simp [minRun]
theorem maxRun_snoc (lo : K) (xs : List K) (x : K) :
    maxRun ltb lo (xs ++ [x]) = maxAssign ltb (maxRun ltb lo xs) x := by simp [maxRun]

/-! ### Density -/

theorem densityStep_val {n : ℕ} {mn mx : K} {s s' : DensitySt K} {x : K} (h : densityStep n mn mx s x = .val s') :
    s'.cnt = n ∧ s'.mn = mn ∧ s'.mx = mx := by
  unfold densityStep at h
  dsimp only at h
  repeat' first
    | (obtain rfl := Res.val.inj h; exact ⟨rfl, rfl, rfl⟩)
    | (obtain ⟨_, _, h⟩ := Res.bind_eq_val.1 h; try dsimp only at h)
    | split at h

theorem wdensityStep_val {n : ℕ} {w mn mx : K} {s s' : WDensitySt K} {p : K × K}
    (h : wdensityStep n w mn mx s p = .val s') : s'.cnt = n ∧ s'.wsum = w ∧ s'.mn = mn ∧ s'.mx = mx := by
  unfold wdensityStep at h
  dsimp only at h
  repeat' first
    | (obtain rfl := Res.val.inj h; exact ⟨rfl, rfl, rfl, rfl⟩)
    | (obtain ⟨_, _, h⟩ := Res.bind_eq_val.1 h; try dsimp only at h)
    | split at h

section density
variable (lo hi : K) (c B : ℕ) (x0 : K)

theorem density_congr {T : Type} (xs : List K) {f g : DensitySt K → Res T}
    (h : ∀ s, s.cnt = xs.length → s.mn = minRun ltb hi xs → s.mx = maxRun ltb lo xs → f s = g s) :
    ((densitySet lo hi c B x0).exec (densitySet lo hi c B x0).init (onlyPushes xs)).bind f
      = ((densitySet lo hi c B x0).exec (densitySet lo hi c B x0).init (onlyPushes xs)).bind g := by
  refine RMachine.bind_congr _ (fun s xs => s.cnt = xs.length ∧ s.mn = minRun ltb hi xs ∧ s.mx = maxRun ltb lo xs)
    ⟨rfl, rfl, rfl⟩ ?_ xs fun s hs => h s hs.1 hs.2.1 hs.2.2
  intro s xs x s' hs h
  obtain ⟨h1, h2, h3⟩ := densityStep_val h
  refine ⟨?_, ?_, ?_⟩
  · rw [h1, hs.1]; simp
  · rw [h2, hs.2.1, minRun_snoc]
  · rw [h3, hs.2.2, maxRun_snoc]

theorem density_snoc (xs : List K) (x : K) :
    (densitySet lo hi c B x0).exec (densitySet lo hi c B x0).init (onlyPushes (xs ++ [x]))
      = ((densitySet lo hi c B x0).exec (densitySet lo hi c B x0).init (onlyPushes xs)).bind fun s =>
        densityStep (xs.length + 1) (minRun ltb hi (xs ++ [x])) (maxRun ltb lo (xs ++ [x])) s x := by
  rw [RMachine.exec_snoc]
  refine density_congr lo hi c B x0 xs fun s h1 h2 h3 => ?_
  rw [minRun_snoc, maxRun_snoc, ← h1, ← h2, ← h3]
  rfl

theorem density_answer_exec (xs : List K) :
    (densitySet lo hi c B x0).answer (onlyPushes xs) ()
      = ((densitySet lo hi c B x0).exec (densitySet lo hi c B x0).init (onlyPushes xs)).bind fun s =>
        (densityQuery { s with cnt := xs.length }).bind fun r => .val r.2 := by
  refine density_congr lo hi c B x0 xs fun s h1 h2 h3 => ?_
  rw [← h1]
  rfl

theorem wdensity_congr {T : Type} (ps : List (K × K)) {f g : WDensitySt K → Res T}
    (h : ∀ s, s.cnt = ps.length → s.wsum = (ps.map Prod.snd).sum → s.mn = minRun ltb hi (ps.map Prod.fst) →
      s.mx = maxRun ltb lo (ps.map Prod.fst) → f s = g s) :
    ((wdensitySet lo hi c B x0).exec (wdensitySet lo hi c B x0).init (onlyPushes ps)).bind f
      = ((wdensitySet lo hi c B x0).exec (wdensitySet lo hi c B x0).init (onlyPushes ps)).bind g := by
  refine RMachine.bind_congr _ (fun s ps => s.cnt = ps.length ∧ s.wsum = (ps.map Prod.snd).sum ∧
      s.mn = minRun ltb hi (ps.map Prod.fst) ∧ s.mx = maxRun ltb lo (ps.map Prod.fst))
    ⟨rfl, by simp [wdensitySet, wdensityInit], rfl, rfl⟩ ?_ ps fun s hs => h s hs.1 hs.2.1 hs.2.2.1 hs.2.2.2
  intro s xs x s' hs h
  obtain ⟨h1, h2, h3, h4⟩ := wdensityStep_val h
  refine ⟨?_, ?_, ?_, ?_⟩
  · rw [h1, hs.1]; simp
  · rw [h2, hs.2.1]; simp [sumStep]
  · rw [h3, hs.2.2.1, List.map_append, List.map_singleton, minRun_snoc]
  · rw [h4, hs.2.2.2, List.map_append, List.map_singleton, maxRun_snoc]

theorem wdensity_snoc (ps : List (K × K)) (p : K × K) :
    (wdensitySet lo hi c B x0).exec (wdensitySet lo hi c B x0).init (onlyPushes (ps ++ [p]))
      = ((wdensitySet lo hi c B x0).exec (wdensitySet lo hi c B x0).init (onlyPushes ps)).bind fun s =>
        wdensityStep (ps.length + 1) ((ps ++ [p]).map Prod.snd).sum (minRun ltb hi ((ps ++ [p]).map Prod.fst))
          (maxRun ltb lo ((ps ++ [p]).map Prod.fst)) s p := by
  rw [RMachine.exec_snoc]
  refine wdensity_congr lo hi c B x0 ps fun s h1 h2 h3 h4 => ?_
  rw [List.map_append, List.map_append, List.map_singleton, List.map_singleton, minRun_snoc, maxRun_snoc, ← h1, ← h3,
    ← h4, List.sum_append, ← h2]
  simp [wdensitySet, wdensityPush, sumStep]

theorem wdensity_answer_exec (ps : List (K × K)) :
    (wdensitySet lo hi c B x0).answer (onlyPushes ps) ()
      = ((wdensitySet lo hi c B x0).exec (wdensitySet lo hi c B x0).init (onlyPushes ps)).bind fun s =>
        (wdensityQuery { s with wsum := (ps.map Prod.snd).sum }).bind fun r => .val r.2 := by
  refine wdensity_congr lo hi c B x0 ps fun s h1 h2 h3 h4 => ?_
  rw [← h2]
  rfl

theorem dmedian_answer (xs : List K) :
    (dmedianSet lo hi c B x0).answer (onlyPushes xs) ()
      = ((densitySet lo hi c B x0).answer (onlyPushes xs) ()).bind fun h =>
        (densityMedianBody (xs.length : K) x0 h).bind fun r => .val r.2 := by
  unfold RMachine.answer
  rw [show (dmedianSet lo hi c B x0).init = ⟨(densitySet lo hi c B x0).init, x0, true, 0⟩ from rfl, dmedian_exec_pushes]
  have hc := fun s (h : (densitySet lo hi c B x0).exec (densitySet lo hi c B x0).init (onlyPushes xs)
    = .val s) => (show s.cnt = xs.length by
      have := density_congr lo hi c B x0 xs (f := fun s => Res.val s.cnt) (g := fun _ => .val xs.length)
        (fun s h1 _ _ => by rw [h1])
      rw [h] at this
      exact Res.val.inj this)
  cases he : (densitySet lo hi c B x0).exec (densitySet lo hi c B x0).init (onlyPushes xs) with
  | val d =>
    have hd := hc d he
    simp only [Res.val_bind, Res.pure_eq, ite_self, Res.bind]
    have e2 : (densitySet lo hi c B x0).query d () = densityQuery d := rfl
    have e3 : (dmedianSet lo hi c B x0).query ⟨d, x0, true, 0⟩ () = (densityQuery d).bind fun r =>
      (densityMedianBody (d.cnt : K) x0 r.2).bind fun m => .val ((⟨r.1, m.1, false, m.2⟩ : DMedianSt K), m.2) := rfl
    rw [e2, e3, hd]
    cases densityQuery d with
    | val r =>
      show ((densityMedianBody (xs.length : K) x0 r.2).bind _) >>= _ = (densityMedianBody (xs.length : K) x0 r.2).bind _
      cases densityMedianBody (xs.length : K) x0 r.2 <;> rfl
    | _ => rfl
  | _ => rfl

theorem wdmedian_answer (ps : List (K × K)) :
    (wdmedianSet lo hi c B x0).answer (onlyPushes ps) ()
      = ((wdensitySet lo hi c B x0).answer (onlyPushes ps) ()).bind fun h =>
        (densityMedianBody (ps.length : K) x0 h).bind fun r => .val r.2 := by
  unfold RMachine.answer
  rw [show (wdmedianSet lo hi c B x0).init = ⟨(wdensitySet lo hi c B x0).init, x0, true, 0⟩ from rfl,
    wdmedian_exec_pushes]
  have hc := fun s (h : (wdensitySet lo hi c B x0).exec (wdensitySet lo hi c B x0).init (onlyPushes ps)
    = .val s) => (show s.cnt = ps.length by
      have := wdensity_congr lo hi c B x0 ps (f := fun s => Res.val s.cnt) (g := fun _ => .val ps.length)
        (fun s h1 _ _ _ => by rw [h1])
      rw [h] at this
      exact Res.val.inj this)
  cases he : (wdensitySet lo hi c B x0).exec (wdensitySet lo hi c B x0).init (onlyPushes ps) with
  | val d =>
    have hd := hc d he
    simp only [Res.val_bind, Res.pure_eq, ite_self, Res.bind]
    have e2 : (wdensitySet lo hi c B x0).query d () = wdensityQuery d := rfl
    have e3 : (wdmedianSet lo hi c B x0).query ⟨d, x0, true, 0⟩ () = (wdensityQuery d).bind fun r =>
      (densityMedianBody (d.cnt : K) x0 r.2).bind fun m => .val ((⟨r.1, m.1, false, m.2⟩ : WDMedianSt K), m.2) := rfl
    rw [e2, e3, hd]
    cases wdensityQuery d with
    | val r =>
      show ((densityMedianBody (ps.length : K) x0 r.2).bind _) >>= _ = (densityMedianBody (ps.length : K) x0 r.2).bind _
      cases densityMedianBody (ps.length : K) x0 r.2 <;> rfl
    | _ => rfl
  | _ => rfl

end density

/-! ### P² -/

theorem psqStep_val {incr : List K} {n : ℕ} {s s' : PsqSt K} {x : K} (h : psqStep incr n s x = .val s') :
    s'.cnt = n := by
  unfold psqStep at h
  dsimp only at h
  repeat' first
    | (obtain rfl := Res.val.inj h; exact rfl)
    | (obtain ⟨_, _, h⟩ := Res.bind_eq_val.1 h; try dsimp only at h)
    | split at h

theorem wpsqStep_val {m sm : ℕ} {des : K → K → Res (List K)} {n : ℕ} {w : K} {s s' : WPsqSt K} {p : K × K}
    (h : wpsqStep m sm des n w s p = .val s') : s'.cnt = n ∧ s'.wsum = w := by
  unfold wpsqStep at h
  dsimp only at h
  repeat' first
    | (obtain rfl := Res.val.inj h; exact ⟨rfl, rfl⟩)
    | (obtain ⟨_, _, h⟩ := Res.bind_eq_val.1 h; try dsimp only at h)
    | split at h

section psq

/-- A set whose pushes are those of a P² estimator. -/
theorem psq_snoc {Q R : Type} (M : RMachine K Q (PsqSt K) R) (incr : List K) (h0 : M.init.cnt = 0)
    (hp : ∀ s x, M.push s x = psqPush incr s x) (xs : List K) (x : K) :
    M.exec M.init (onlyPushes (xs ++ [x])) = (M.exec M.init (onlyPushes xs)).bind fun s =>
      psqStep incr (xs.length + 1) s x := by
  rw [RMachine.exec_snoc]
  refine RMachine.bind_congr M (fun s xs => s.cnt = xs.length) h0 ?_ xs fun s hs => ?_
  · intro s xs x s' hs h
    rw [hp] at h
    rw [psqStep_val h, hs]
    simp
  · rw [hp, psqPush, hs]

theorem wpsq_snoc {Q R : Type} (M : RMachine (K × K) Q (WPsqSt K) R) (m sm : ℕ) (des : K → K → Res (List K))
    (h0 : M.init.cnt = 0 ∧ M.init.wsum = 0) (hp : ∀ s x, M.push s x = wpsqPush m sm des s x) (ps : List (K × K))
    (p : K × K) :
    M.exec M.init (onlyPushes (ps ++ [p])) = (M.exec M.init (onlyPushes ps)).bind fun s =>
      wpsqStep m sm des (ps.length + 1) ((ps ++ [p]).map Prod.snd).sum s p := by
  rw [RMachine.exec_snoc]
  refine RMachine.bind_congr M (fun s ps => s.cnt = ps.length ∧ s.wsum = (ps.map Prod.snd).sum)
    ⟨h0.1, by simpa using h0.2⟩ ?_ ps fun s hs => ?_
  · intro s xs x s' hs h
    rw [hp] at h
    obtain ⟨h1, h2⟩ := wpsqStep_val h
    rw [h1, h2, hs.1, hs.2]
    simp
  · rw [hp, wpsqPush, hs.1, hs.2]
    simp

theorem cumul_congr {T : Type} (b : ℕ) (xs : List K) {f g : PsqCumulSt K → Res T}
    (h : ∀ s, s.m.cnt = xs.length → f s = g s) :
    ((psqCumulSet b).exec (psqCumulSet b).init (onlyPushes xs)).bind f
      = ((psqCumulSet b).exec (psqCumulSet b).init (onlyPushes xs)).bind g := by
  refine RMachine.bind_congr _ (fun s xs => s.m.cnt = xs.length) rfl ?_ xs h
  intro s xs x s' hs h
  have h' : (psqPush (psqCumulIncr b) s.m x).bind (fun m => .val { s with m := m, dirty := true }) = .val s' := h
  cases hp : psqPush (psqCumulIncr b) s.m x with
  | val m =>
    rw [hp] at h'
    injection h' with h'
    subst h'
    rw [psqStep_val hp, hs]
    simp
  | _ => rw [hp] at h'; cases h'

theorem cumul_snoc (b : ℕ) (xs : List K) (x : K) :
    (psqCumulSet b).exec (psqCumulSet b).init (onlyPushes (xs ++ [x]))
      = ((psqCumulSet b).exec (psqCumulSet b).init (onlyPushes xs)).bind fun s =>
        (psqStep (psqCumulIncr b) (xs.length + 1) s.m x).bind fun m => .val { s with m := m, dirty := true } := by
  rw [RMachine.exec_snoc]
  refine cumul_congr b xs fun s hs => ?_
  rw [← hs]
  rfl

theorem cumul_answer (b : ℕ) (xs : List K) :
    (psqCumulSet b).answer (onlyPushes xs) ()
      = ((psqCumulSet b).exec (psqCumulSet b).init (onlyPushes xs)).bind fun s =>
        if s.dirty then psqHist s.m.heights s.m.pos (xs.length : K) else .val s.hist := by
  unfold RMachine.answer
  refine cumul_congr b xs fun s hs => ?_
  rw [← hs]
  show (psqCumulSet b).query s () >>= _ = _
  simp only [psqCumulSet]
  split
  · cases psqHist s.m.heights s.m.pos (s.m.cnt : K) <;> rfl
  · rfl

theorem wcumul_congr {T : Type} (b : ℕ) (ps : List (K × K)) {f g : WPsqCumulSt K → Res T}
    (h : ∀ s, s.m.cnt = ps.length → s.m.wsum = (ps.map Prod.snd).sum → f s = g s) :
    ((wpsqCumulSet b).exec (wpsqCumulSet b).init (onlyPushes ps)).bind f
      = ((wpsqCumulSet b).exec (wpsqCumulSet b).init (onlyPushes ps)).bind g := by
  refine RMachine.bind_congr _ (fun s ps => s.m.cnt = ps.length ∧ s.m.wsum = (ps.map Prod.snd).sum)
    ⟨rfl, by simp [wpsqCumulSet, wpsqInit]⟩ ?_ ps fun s hs => h s hs.1 hs.2
  intro s xs x s' hs h
  have h' : (wpsqPush (b + 1) b (fun n0 W => .val (wpsqCumulDes b n0 W)) s.m x).bind
    (fun m => .val { s with m := m, dirty := true }) = .val s' := h
  cases hp : wpsqPush (b + 1) b (fun n0 W => .val (wpsqCumulDes b n0 W)) s.m x with
  | val m =>
    rw [hp] at h'
    injection h' with h'
    subst h'
    obtain ⟨h1, h2⟩ := wpsqStep_val hp
    dsimp only
    rw [h1, h2, hs.1, hs.2]
    simp
  | _ => rw [hp] at h'; cases h'

theorem wcumul_snoc (b : ℕ) (ps : List (K × K)) (p : K × K) :
    (wpsqCumulSet b).exec (wpsqCumulSet b).init (onlyPushes (ps ++ [p]))
      = ((wpsqCumulSet b).exec (wpsqCumulSet b).init (onlyPushes ps)).bind fun s =>
        (wpsqStep (b + 1) b (fun n0 W => .val (wpsqCumulDes b n0 W)) (ps.length + 1) ((ps ++ [p]).map Prod.snd).sum
          s.m p).bind fun m => .val { s with m := m, dirty := true } := by
  rw [RMachine.exec_snoc]
  refine wcumul_congr b ps fun s h1 h2 => ?_
  rw [List.map_append, List.sum_append, ← h1, ← h2]
  simp only [List.map_cons, List.map_nil, List.sum_cons, List.sum_nil, add_zero]
  rfl

theorem wcumul_answer (b : ℕ) (ps : List (K × K)) :
    (wpsqCumulSet b).answer (onlyPushes ps) ()
      = ((wpsqCumulSet b).exec (wpsqCumulSet b).init (onlyPushes ps)).bind fun s =>
        if s.dirty then psqHist s.m.heights s.m.pos (ps.map Prod.snd).sum else .val s.hist := by
  unfold RMachine.answer
  refine wcumul_congr b ps fun s h1 h2 => ?_
  rw [← h2]
  show (wpsqCumulSet b).query s () >>= _ = _
  simp only [wpsqCumulSet]
  split
  · cases psqHist s.m.heights s.m.pos s.m.wsum <;> rfl
  · rfl

theorem cmedian_exec (b : ℕ) (s : CMedianSt K) (xs : List K) :
    (cmedianSet b).exec s (onlyPushes xs) = ((psqCumulSet b).exec s.dist (onlyPushes (Q := Unit) xs)).bind fun d =>
      .val { s with dist := d, dirty := if xs = [] then s.dirty else true } := by
  induction xs generalizing s with
  | nil => rfl
  | cons x xs ih =>
    simp only [onlyPushes, List.map_cons, RMachine.exec, RMachine.exec1]
    change (((psqCumulSet b).push s.dist x >>= _) >>= _) = Res.bind ((psqCumulSet b).push s.dist x >>= _) _
    cases (psqCumulSet b).push s.dist x with
    | val d =>
      simp only [Res.val_bind, Res.pure_eq]
      refine (ih _).trans ?_
      simp only [onlyPushes]
      congr 1
      funext d
      by_cases h : xs = [] <;> simp [h]
    | _ => rfl

theorem cmedian_pushed (b : ℕ) (xs : List K) :
    (cmedianSet b).answer (onlyPushes xs) () = ((psqCumulSet b).answer (onlyPushes xs) ()).bind cumulMedianBody := by
  unfold RMachine.answer
  rw [show (cmedianSet b : RMachine K Unit (CMedianSt K) K).init = ⟨(psqCumulSet b).init, true, 0⟩ from rfl,
    cmedian_exec]
  dsimp only
  cases (psqCumulSet b).exec (psqCumulSet b).init (onlyPushes xs) with
  | val d =>
    simp only [Res.val_bind, Res.bind, ite_self, cmedianSet, if_true]
    cases (psqCumulSet b).query d () with
    | val r =>
      simp only [Res.val_bind, Res.pure_eq]
      cases cumulMedianBody r.2 <;> rfl
    | _ => rfl
  | _ => rfl

theorem wcmedian_exec (b : ℕ) (s : WCMedianSt K) (ps : List (K × K)) :
    (wcmedianSet b).exec s (onlyPushes ps) = ((wpsqCumulSet b).exec s.dist (onlyPushes (Q := Unit) ps)).bind fun d =>
      .val { s with dist := d, dirty := if ps = [] then s.dirty else true } := by
  induction ps generalizing s with
  | nil => rfl
  | cons x xs ih =>
    simp only [onlyPushes, List.map_cons, RMachine.exec, RMachine.exec1]
    change (((wpsqCumulSet b).push s.dist x >>= _) >>= _) = Res.bind ((wpsqCumulSet b).push s.dist x >>= _) _
    cases (wpsqCumulSet b).push s.dist x with
    | val d =>
      simp only [Res.val_bind, Res.pure_eq]
      refine (ih _).trans ?_
      simp only [onlyPushes]
      congr 1
      funext d
      by_cases h : xs = [] <;> simp [h]
    | _ => rfl

theorem wcmedian_pushed (b : ℕ) (ps : List (K × K)) :
    (wcmedianSet b).answer (onlyPushes ps) () = ((wpsqCumulSet b).answer (onlyPushes ps) ()).bind cumulMedianBody := by
  unfold RMachine.answer
  rw [show (wcmedianSet b : RMachine (K × K) Unit (WCMedianSt K) K).init = ⟨(wpsqCumulSet b).init, true, 0⟩ from rfl,
    wcmedian_exec]
  dsimp only
  cases (wpsqCumulSet b).exec (wpsqCumulSet b).init (onlyPushes ps) with
  | val d =>
    simp only [Res.val_bind, Res.bind, ite_self, wcmedianSet, if_true]
    cases (wpsqCumulSet b).query d () with
    | val r =>
      simp only [Res.val_bind, Res.pure_eq]
      cases cumulMedianBody r.2 <;> rfl
    | _ => rfl
  | _ => rfl

end psq

end Acc
