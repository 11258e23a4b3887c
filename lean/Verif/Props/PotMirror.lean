import Verif.Props.PotQuantile

/-!
# Left and right peaks over threshold (C55), and the order of arrival (C10)

One extraction after any stream of pushes (with extractions in between the two sides differ, `C55_pot_fails`).
-/

set_option linter.unusedSectionVars false

namespace Acc

variable {K : Type} [Field K] [LinearOrder K] [IsStrictOrderedRing K]

/-- Two extractions with the same outcome, after which both sets keep returning the same fit (or both failed). -/
def SameFit {S S' : Type} (qr : S → Res (S × PotFit K)) (qr' : S' → Res (S' × PotFit K)) (s : S) (s' : S') : Prop :=
  (∃ t t' r f, qr s = .val (t, r) ∧ qr' s' = .val (t', r) ∧ qr t = .val (t, f) ∧ qr' t' = .val (t', f)) ∨
    ((∀ x, qr s ≠ .val x) ∧ Prod.snd <$> qr s = Prod.snd <$> qr' s')

theorem SameFit.fit {S S' : Type} {qr : S → Res (S × PotFit K)} {qr' : S' → Res (S' × PotFit K)} {s : S} {s' : S'}
    (h : SameFit qr qr' s s') : Prod.snd <$> qr s = Prod.snd <$> qr' s' := by
  rcases h with ⟨t, t', r, f, e1, e2, -, -⟩ | ⟨-, h⟩
  · rw [e1, e2]; rfl
  · exact h

theorem potQuantileValue_mirror (pw : K → K → Res K) (fit : PotFit K) (p : K) :
    potQuantileValue pw .left fit (1 - p) = (fun v => -v) <$> potQuantileValue pw .right fit p := by
  unfold potQuantileValue
  cases fit.1 with
  | val u =>
    simp only [Res.val_bind]
    cases fit.2.1 with
    | val b =>
      simp only [Res.val_bind]
      cases fit.2.2 with
      | val x =>
        simp only [Res.val_bind]
        cases fdiv b x with
        | val q =>
          simp only [Res.val_bind, tailLevel]
          cases pw (1 - p) (-x) with
          | val w => simp [Res.val_bind, Res.pure_eq, Res.map_val, potSign]
          | _ => rfl
        | _ => rfl
      | _ => rfl
    | _ => rfl
  | _ => rfl

theorem potTailMeanValue_mirror (pw : K → K → Res K) (b x q : Res K) (p : K) :
    potTailMeanValue pw .left b x ((fun v => -v) <$> q) (1 - p) = (fun v => -v) <$> potTailMeanValue pw .right b x q p := by
  unfold potTailMeanValue
  cases b with
  | val b =>
    simp only [Res.val_bind]
    cases x with
    | val x =>
      simp only [Res.val_bind]
      cases q with
      | val q =>
        simp only [Res.map_val, Res.val_bind, potSign, tailLevel]
        by_cases h : x - 1 = 0
        · rw [h, fdiv_zero, fdiv_zero]; rfl
        · rw [fdiv_ne h, fdiv_ne h]
          simp only [Res.val_bind]
          cases pw (1 - p) (-x) with
          | val w =>
            simp only [Res.val_bind, Res.pure_eq, Res.map_val]
            congr 1
            ring
          | _ => rfl
      | _ => rfl
    | _ => rfl
  | _ => rfl

/-- Quantile and tail mean read from mirrored sets. -/
theorem SameFit.read {S S' : Type} {qr : S → Res (S × PotFit K)} {qr' : S' → Res (S' × PotFit K)} {s : S} {s' : S'}
    (h : SameFit qr qr' s s') (pw : K → K → Res K) (p : K) :
    Prod.snd <$> potQuantile pw .left qr s (1 - p)
      = (fun r : S' × Res K => (fun v => -v) <$> r.2) <$> potQuantile pw .right qr' s' p ∧
    Prod.snd <$> potTailMean pw .left qr s (1 - p)
      = (fun r : S' × Res K => (fun v => -v) <$> r.2) <$> potTailMean pw .right qr' s' p := by
  unfold potTailMean potQuantile potRead
  rcases h with ⟨t, t', r, f, e1, e2, e3, e4⟩ | ⟨h0, h⟩
  · simp only [e1, e2, e3, e4, Res.val_bind, Res.pure_eq, Res.map_val, potQuantileValue_mirror,
      potTailMeanValue_mirror, and_self]
  · cases e1 : qr s with
    | val x => exact absurd e1 (h0 x)
    | _ =>
      rw [e1] at h
      cases e2 : qr' s' with
      | val x => rw [e2] at h; cases h
      | _ => rw [e2] at h; first | exact ⟨rfl, rfl⟩ | cases h

/-- The observable consequences of two runs that end in mirrored states. -/
theorem SameFit.sets {X X' S S' : Type} {M : RMachine X Unit S (PotFit K)} {M' : RMachine X' Unit S' (PotFit K)}
    {h : List (Op X Unit)} {h' : List (Op X' Unit)} {s : S} {s' : S'}
    (e : M.exec M.init h = .val s) (e' : M'.exec M'.init h' = .val s')
    (hs : SameFit (fun s => M.query s ()) (fun s => M'.query s ()) s s') : M.answer h () = M'.answer h' () := by
  unfold RMachine.answer
  rw [e, e', Res.val_bind, Res.val_bind]
  have := hs.fit
  cases h1 : M.query s () with
  | val x =>
    rw [h1] at this
    cases h2 : M'.query s' () with
    | val y => rw [h2] at this; simpa [Res.map_val, Res.val_bind] using this
    | _ => rw [h2] at this; cases this
  | _ =>
    rw [h1] at this
    cases h2 : M'.query s' () with
    | val x => rw [h2] at this; cases this
    | _ => rw [h2] at this; first | rfl | cases this

theorem exec_potQuantileSet {X S : Type} (pw : K → K → Res K) (side : Side) (M : RMachine X Unit S (PotFit K))
    (l : List X) (s0 : S) : (potQuantileSet pw side M).exec s0 (onlyPushes l) = M.exec s0 (onlyPushes l) := by
  induction l generalizing s0 with
  | nil => rfl
  | cons x l ih =>
    simp only [onlyPushes, List.map_cons, RMachine.exec, RMachine.exec1] at ih ⊢
    have hp : (potQuantileSet pw side M).push s0 x = M.push s0 x := rfl
    rw [hp]
    congr 1
    funext s1
    exact ih s1

theorem exec_potTailMeanSet {X S : Type} (pw : K → K → Res K) (side : Side) (M : RMachine X Unit S (PotFit K))
    (l : List X) (s0 : S) : (potTailMeanSet pw side M).exec s0 (onlyPushes l) = M.exec s0 (onlyPushes l) := by
  induction l generalizing s0 with
  | nil => rfl
  | cons x l ih =>
    simp only [onlyPushes, List.map_cons, RMachine.exec, RMachine.exec1] at ih ⊢
    have hp : (potTailMeanSet pw side M).push s0 x = M.push s0 x := rfl
    rw [hp]
    congr 1
    funext s1
    exact ih s1

theorem SameFit.quantile_sets {X X' S S' : Type} {M : RMachine X Unit S (PotFit K)}
    {M' : RMachine X' Unit S' (PotFit K)} {l : List X} {l' : List X'} {s : S} {s' : S'}
    (e : M.exec M.init (onlyPushes l) = .val s) (e' : M'.exec M'.init (onlyPushes l') = .val s')
    (hs : SameFit (fun s => M.query s ()) (fun s => M'.query s ()) s s') (pw : K → K → Res K) (p : K) :
    (potQuantileSet pw .left M).answer (onlyPushes l) (1 - p)
      = (fun r => (fun v => -v) <$> r) <$> (potQuantileSet pw .right M').answer (onlyPushes l') p ∧
    (potTailMeanSet pw .left M).answer (onlyPushes l) (1 - p)
      = (fun r => (fun v => -v) <$> r) <$> (potTailMeanSet pw .right M').answer (onlyPushes l') p := by
  have hr := hs.read pw p
  have aux : ∀ {A A' : Type} (r : Res (A × Res K)) (r' : Res (A' × Res K)),
      Prod.snd <$> r = (fun r : A' × Res K => (fun v => -v) <$> r.2) <$> r' →
      (r >>= fun x => pure x.2 : Res (Res K)) = (fun r => (fun v => -v) <$> r) <$> (r' >>= fun x => pure x.2 : Res (Res K)) := by
    intro A A' r r' h
    cases r <;> cases r' <;> first | rfl | exact h
  constructor
  · unfold RMachine.answer
    rw [exec_potQuantileSet, exec_potQuantileSet]
    rw [show (potQuantileSet pw .left M).init = M.init from rfl, show (potQuantileSet pw .right M').init = M'.init from rfl,
      e, e', Res.val_bind, Res.val_bind]
    exact aux _ _ hr.1
  · unfold RMachine.answer
    rw [exec_potTailMeanSet, exec_potTailMeanSet]
    rw [show (potTailMeanSet pw .left M).init = M.init from rfl, show (potTailMeanSet pw .right M').init = M'.init from rfl,
      e, e', Res.val_bind, Res.val_bind]
    exact aux _ _ hr.2

/-! ## The fits -/

theorem potHits_mirror (thr : K) (xs : List K) :
    potHits .left (-thr) (xs.map fun x => -x) = (potHits .right thr xs).map fun x => -x := by
  unfold potHits
  rw [List.filter_map]
  congr 1
  apply List.filter_congr
  intro x _
  simp [potSign]

theorem sum_map_neg' (l : List K) : (l.map fun x => -x).sum = -l.sum := by
  induction l with
  | nil => simp
  | cons x l ih => simp [ih]; ring

theorem sq_map_neg (l : List K) : ((l.map fun x => -x).map fun x => x * x).sum = (l.map fun x => x * x).sum := by
  rw [List.map_map]
  congr 1
  apply List.map_congr_left
  intro x _
  simp

/-- The mean of the mirrored exceedances. -/
theorem pot_sgn (m n : K) :
    (fdiv (-m) n >>= fun q => (pure (potSign Side.left * q) : Res K))
      = (fdiv m n >>= fun q => (pure (potSign Side.right * q) : Res K)) := by
  unfold fdiv
  split
  · rfl
  · simp [potSign, neg_div]

/-- **C55** Quantile and tail mean of the left generalised Pareto fit are the negatives of those of the right fit of
the negated stream. -/
theorem C55_pot_quantile_mirror (pw : K → K → Res K) (thr : K) (xs : List K) (p : K) :
    (potQuantileSet pw .left (potSet pw .left (-thr))).answer (onlyPushes (xs.map fun x => -x)) (1 - p)
      = (fun r => (fun v => -v) <$> r) <$> (potQuantileSet pw .right (potSet pw .right thr)).answer (onlyPushes xs) p ∧
    (potTailMeanSet pw .left (potSet pw .left (-thr))).answer (onlyPushes (xs.map fun x => -x)) (1 - p)
      = (fun r => (fun v => -v) <$> r) <$> (potTailMeanSet pw .right (potSet pw .right thr)).answer (onlyPushes xs) p := by
  obtain ⟨s, e, hc, hnu, hmu, hs2, ht, hd⟩ := pot_state pw .left (-thr) (xs.map fun x => -x)
  obtain ⟨s', e', hc', hnu', hmu', hs2', ht', hd'⟩ := pot_state pw .right thr xs
  rw [potHits_mirror, List.length_map] at hnu
  rw [potHits_mirror, sum_map_neg'] at hmu
  rw [potHits_mirror, sq_map_neg] at hs2
  rw [List.length_map] at hc
  refine SameFit.quantile_sets e e' (Or.inl ?_) pw p
  have hq : (potQuery pw .left s).2 = (potQuery pw .right s').2 := by
    unfold potQuery
    rw [if_pos hd, if_pos hd', hc, hc', hnu, hnu', hmu, hmu', hs2, hs2', ht, ht']
    simp only [Res.val_bind, pot_sgn]
    simp [potSign]
  refine ⟨(potQuery pw .left s).1, (potQuery pw .right s').1, (potQuery pw .right s').2, (potQuery pw .right s').2, ?_, rfl, ?_, ?_⟩
  · show Res.val (potQuery pw .left s) = _
    rw [← hq]
  · show Res.val (potQuery pw .left (potQuery pw .left s).1) = _
    rw [pot_requery, ← hq]
  · show Res.val (potQuery pw .right (potQuery pw .right s').1) = _
    rw [pot_requery]

/-- The weighted exceedances. -/
theorem wpotHits_mirror (thr : K) (ps : List (K × K)) :
    wpotHits .left (-thr) (ps.map fun q => (-q.1, q.2)) = (wpotHits .right thr ps).map fun q => (-q.1, q.2) := by
  unfold wpotHits
  rw [List.filter_map]
  congr 1
  apply List.filter_congr
  intro x _
  simp [potSign]

theorem wtotal_mirror (l : List (K × K)) : Spec.wtotal (l.map fun q => (-q.1, q.2)) = Spec.wtotal l := by
  simp [Spec.wtotal, Function.comp_def]

theorem wsum_mirror (l : List (K × K)) :
    ((l.map fun q => (-q.1, q.2)).map fun p => p.2 * p.1).sum = -(l.map fun p => p.2 * p.1).sum := by
  rw [← sum_map_neg', List.map_map, List.map_map]
  simp [Function.comp_def]

theorem wsq_mirror (l : List (K × K)) :
    ((l.map fun q => (-q.1, q.2)).map fun p => p.2 * p.1 * p.1).sum = (l.map fun p => p.2 * p.1 * p.1).sum := by
  rw [List.map_map]
  simp [Function.comp_def]

theorem wpot_same (pw : K → K → Res K) (thr : K) (ps : List (K × K)) :
    ∃ s s', (wpotSet pw .left (-thr)).exec (wpotSet pw .left (-thr)).init (onlyPushes (ps.map fun q => (-q.1, q.2))) = .val s ∧
      (wpotSet pw .right thr).exec (wpotSet pw .right thr).init (onlyPushes ps) = .val s' ∧
      SameFit (fun s => (wpotSet pw .left (-thr)).query s ()) (fun s => (wpotSet pw .right thr).query s ()) s s' := by
  obtain ⟨s, e, hc, hnu, hmu, hs2, ht, hd⟩ := wpot_state pw .left (-thr) (ps.map fun q => (-q.1, q.2))
  obtain ⟨s', e', hc', hnu', hmu', hs2', ht', hd'⟩ := wpot_state pw .right thr ps
  rw [wpotHits_mirror, wtotal_mirror] at hnu
  rw [wpotHits_mirror, wsum_mirror] at hmu
  rw [wpotHits_mirror, wsq_mirror] at hs2
  rw [wtotal_mirror] at hc
  refine ⟨s, s', e, e', Or.inl ?_⟩
  have hq : (wpotQuery pw .left s).2 = (wpotQuery pw .right s').2 := by
    unfold wpotQuery
    rw [if_pos hd, if_pos hd', hc, hc', hnu, hnu', hmu, hmu', hs2, hs2', ht, ht']
    simp only [Res.val_bind, pot_sgn]
    simp [potSign]
  refine ⟨(wpotQuery pw .left s).1, (wpotQuery pw .right s').1, (wpotQuery pw .right s').2, (wpotQuery pw .right s').2, ?_, rfl, ?_, ?_⟩
  · show Res.val (wpotQuery pw .left s) = _
    rw [← hq]
  · show Res.val (wpotQuery pw .left (wpotQuery pw .left s).1) = _
    rw [wpot_requery, ← hq]
  · show Res.val (wpotQuery pw .right (wpotQuery pw .right s').1) = _
    rw [wpot_requery]

/-- **C55** The weighted fit, its quantiles and tail means, any weights. -/
theorem C55_wpot_mirror (pw : K → K → Res K) (thr : K) (ps : List (K × K)) (p : K) :
    (wpotSet pw .left (-thr)).answer (onlyPushes (ps.map fun q => (-q.1, q.2))) ()
      = (wpotSet pw .right thr).answer (onlyPushes ps) () ∧
    (potQuantileSet pw .left (wpotSet pw .left (-thr))).answer (onlyPushes (ps.map fun q => (-q.1, q.2))) (1 - p)
      = (fun r => (fun v => -v) <$> r) <$> (potQuantileSet pw .right (wpotSet pw .right thr)).answer (onlyPushes ps) p ∧
    (potTailMeanSet pw .left (wpotSet pw .left (-thr))).answer (onlyPushes (ps.map fun q => (-q.1, q.2))) (1 - p)
      = (fun r => (fun v => -v) <$> r) <$> (potTailMeanSet pw .right (wpotSet pw .right thr)).answer (onlyPushes ps) p := by
  obtain ⟨s, s', e, e', h⟩ := wpot_same pw thr ps
  exact ⟨SameFit.sets e e' h, SameFit.quantile_sets e e' h pw p⟩

section prob

variable {V : Type} [FloorRing K]

theorem potProb_same (pw : K → K → Res K) (H : HeapImpl ℕ) (hasNaN : Bool) {k : ℕ} (hk : 1 ≤ k) (v0 : V) (tp : K)
    (ps : List (K × V)) :
    ∃ s s', (potProbSet pw H .left hasNaN k v0 (1 - tp)).exec (potProbSet pw H .left hasNaN k v0 (1 - tp)).init
        (onlyPushes (ps.map fun q => (-q.1, q.2))) = .val s ∧
      (potProbSet pw H .right hasNaN k v0 tp).exec (potProbSet pw H .right hasNaN k v0 tp).init (onlyPushes ps) = .val s' ∧
      SameFit (fun s => (potProbSet pw H .left hasNaN k v0 (1 - tp)).query s ())
        (fun s => (potProbSet pw H .right hasNaN k v0 tp).query s ()) s s' := by
  obtain ⟨s, e, hc, htl, hmu, hs2, htp, hd, hf⟩ := potProb_state pw H .left hasNaN hk v0 (1 - tp) (ps.map fun q => (-q.1, q.2))
  obtain ⟨s', e', hc', htl', hmu', hs2', htp', hd', hf'⟩ := potProb_state pw H .right hasNaN hk v0 tp ps
  refine ⟨s, s', e, e', ?_⟩
  have hx : Spec.extremes .left k ((ps.map fun q => (-q.1, q.2)).map Prod.fst)
      = (Spec.extremes .right k (ps.map Prod.fst)).map fun x => -x := by
    rw [← extremes_map (side := .right) (side' := .left) (f := fun x => -x) (by
      intro a b hab
      simpa [Spec.geExt] using hab)]
    simp [Function.comp_def]
  rw [hx] at htl
  rw [List.length_map] at hc
  generalize Spec.extremes Side.right k (ps.map Prod.fst) = E at *
  have hn : tailN .left ps.length (1 - tp) = tailN .right ps.length tp := rfl
  show SameFit (potProbQuery pw H .left hasNaN) (potProbQuery pw H .right hasNaN) s s'
  have q1 : ∀ (side : Side) (t : PotProbSt K V), t.dirty = false →
      potProbQuery pw H side hasNaN t = .val (t, t.fit) := by
    intro side t ht
    unfold potProbQuery
    rw [if_neg (by simp [ht])]
    rfl
  unfold SameFit
  have u1 : potProbQuery pw H .left hasNaN s = potProbQuery pw H .left hasNaN s := rfl
  have u2 : potProbQuery pw H .right hasNaN s' = potProbQuery pw H .right hasNaN s' := rfl
  conv_rhs at u1 => unfold potProbQuery
  conv_rhs at u2 => unfold potProbQuery
  rw [if_pos hd, hc, htp, htl, hmu, hs2, hn] at u1
  rw [if_pos hd', hc', htp', htl', hmu', hs2'] at u2
  cases hN : tailN Side.right ps.length tp with
  | val n =>
    rw [hN] at u1 u2
    simp only [Res.val_bind, List.length_map] at u1 u2
    by_cases hge : n ≥ E.length
    · rw [if_pos hge] at u1 u2
      cases hasNaN with
      | true =>
        left
        simp only [potNaN, if_true, Res.val_bind, Res.pure_eq] at u1 u2
        refine ⟨_, _, _, (.val 0, .val 0, .val 0), u1, u2, ?_, ?_⟩
        · rw [q1 _ _ rfl, hf]
        · rw [q1 _ _ rfl, hf']
      | false =>
        right
        rw [u1, u2]
        exact ⟨fun x hx => (by cases hx), rfl⟩
    · rw [if_neg hge] at u1 u2
      by_cases h0 : n = 0
      · rw [if_pos h0] at u1 u2
        right
        rw [u1, u2]
        exact ⟨fun x hx => (by cases hx), rfl⟩
      · rw [if_neg h0] at u1 u2
        rw [List.getElem?_map] at u1
        cases hy : E[n - 1]? with
        | none =>
          rw [hy] at u1 u2
          right
          rw [u1, u2]
          exact ⟨fun x hx => (by cases hx), rfl⟩
        | some y =>
          rw [hy] at u1 u2
          left
          simp only [Option.map_some, ← List.map_take, foldl_add_sum, foldl_sq_sum, sum_map_neg', sq_map_neg, zero_add,
            Res.val_bind, Res.pure_eq, sub_sub_cancel] at u1 u2
          have hsg := pot_sgn (K := K) (List.take n E).sum n
          simp only [Res.pure_eq] at hsg
          rw [hsg] at u1
          have hyy : -y * potSign .left = y * potSign .right := by simp [potSign]
          rw [hyy] at u1
          exact ⟨_, _, _, _, u1, u2, q1 _ _ rfl, q1 _ _ rfl⟩
  | _ =>
    right
    rw [hN] at u1 u2
    rw [u1, u2]
    exact ⟨fun x hx => (by cases hx), rfl⟩

/-- **C55** The fit for a threshold given as a probability, its quantiles and tail means. -/
theorem C55_pot_prob_mirror (pw : K → K → Res K) (H : HeapImpl ℕ) (hasNaN : Bool) {k : ℕ} (hk : 1 ≤ k) (v0 : V) (tp : K)
    (ps : List (K × V)) (p : K) :
    (potProbSet pw H .left hasNaN k v0 (1 - tp)).answer (onlyPushes (ps.map fun q => (-q.1, q.2))) ()
      = (potProbSet pw H .right hasNaN k v0 tp).answer (onlyPushes ps) () ∧
    (potQuantileSet pw .left (potProbSet pw H .left hasNaN k v0 (1 - tp))).answer
        (onlyPushes (ps.map fun q => (-q.1, q.2))) (1 - p)
      = (fun r => (fun v => -v) <$> r) <$> (potQuantileSet pw .right (potProbSet pw H .right hasNaN k v0 tp)).answer (onlyPushes ps) p ∧
    (potTailMeanSet pw .left (potProbSet pw H .left hasNaN k v0 (1 - tp))).answer
        (onlyPushes (ps.map fun q => (-q.1, q.2))) (1 - p)
      = (fun r => (fun v => -v) <$> r) <$> (potTailMeanSet pw .right (potProbSet pw H .right hasNaN k v0 tp)).answer (onlyPushes ps) p := by
  obtain ⟨s, s', e, e', h⟩ := potProb_same pw H hasNaN hk v0 tp ps
  exact ⟨SameFit.sets e e' h, SameFit.quantile_sets e e' h pw p⟩

end prob

theorem wpotLoop_mirror (T : K) (n : ℕ) (s : K) (m v : Res K) (l : List (K × K)) :
    wpotLoop T n s ((fun x => -x) <$> m) v (l.map fun q => (-q.1, q.2))
      = (((wpotLoop T n s m v l).1.1, (wpotLoop T n s m v l).1.2.1, (fun x => -x) <$> (wpotLoop T n s m v l).1.2.2.1,
          (wpotLoop T n s m v l).1.2.2.2), (wpotLoop T n s m v l).2) := by
  induction l generalizing n s m v with
  | nil => rfl
  | cons p l ih =>
    simp only [List.map_cons, wpotLoop]
    split
    · rw [← ih]
      congr 1
      · cases m with
        | val m =>
          simp only [Res.map_val, Res.val_bind, Res.pure_eq]
          congr 1
          ring
        | _ => rfl
      · cases v with
        | val v =>
          simp only [Res.val_bind, Res.pure_eq]
          congr 1
          ring
        | _ => rfl
    · rfl

theorem wpotProbQuery_mirror (pw : K → K → Res K) (H : HeapImpl ℕ) (hasNaN : Bool) {s s' : WPotProbSt K} {E ws : List K}
    {tp : K} (ht : s.total = s'.total) (h1 : tailResult H .right s'.tail = .val E)
    (h2 : tailVariateResult H .right s'.tail = .val ws) (g1 : tailResult H .left s.tail = .val (E.map fun x => -x))
    (g2 : tailVariateResult H .left s.tail = .val ws) (hmu : s.mu = .val 0) (hmu' : s'.mu = .val 0)
    (hs2 : s.sigma2 = .val 0) (hs2' : s'.sigma2 = .val 0) (htp : s.tp = 1 - tp) (htp' : s'.tp = tp)
    (hd : s.dirty = true) (hd' : s'.dirty = true) (hf : s.fit = s'.fit) :
    SameFit (wpotProbQuery pw H .left hasNaN) (wpotProbQuery pw H .right hasNaN) s s' := by
  have q1 : ∀ (side : Side) (t : WPotProbSt K), t.dirty = false →
      wpotProbQuery pw H side hasNaN t = .val (t, t.fit) := by
    intro side t ht
    unfold wpotProbQuery
    rw [if_neg (by simp [ht])]
    rfl
  unfold SameFit
  have u1 : wpotProbQuery pw H .left hasNaN s = wpotProbQuery pw H .left hasNaN s := rfl
  have u2 : wpotProbQuery pw H .right hasNaN s' = wpotProbQuery pw H .right hasNaN s' := rfl
  conv_rhs at u1 => unfold wpotProbQuery
  conv_rhs at u2 => unfold wpotProbQuery
  have hz : (E.map fun x => -x).zip ws = (E.zip ws).map fun q => (-q.1, q.2) := by
    rw [List.zip_map_left]
    rfl
  have hl := wpotLoop_mirror (s'.total * tailLevel .right tp) 0 0 (.val 0) (.val 0) (E.zip ws)
  rw [Res.map_val, neg_zero] at hl
  rw [if_pos hd, ht, htp, g1, g2, hmu, hs2, Res.val_bind, Res.val_bind,
    show tailLevel Side.left (1 - tp) = tailLevel Side.right tp from rfl, hz, hl] at u1
  rw [if_pos hd', htp', h1, h2, hmu', hs2', Res.val_bind, Res.val_bind] at u2
  generalize wpotLoop (s'.total * tailLevel .right tp) 0 0 (.val 0) (.val 0) (E.zip ws) = R at u1 u2
  simp only at u1 u2
  by_cases hR : R.2 = true
  · rw [if_pos hR] at u1 u2
    by_cases h0 : R.1.1 = 0
    · rw [if_pos h0] at u1 u2
      right
      rw [u1, u2]
      exact ⟨fun x hx => (by cases hx), rfl⟩
    · rw [if_neg h0] at u1 u2
      rw [List.getElem?_map] at u1
      cases hy : E[R.1.1 - 1]? with
      | none =>
        rw [hy] at u1 u2
        right
        rw [u1, u2]
        exact ⟨fun x hx => (by cases hx), rfl⟩
      | some y =>
        rw [hy] at u1 u2
        left
        have hmean : (do
              let m ← (fun x => -x) <$> R.1.2.2.1
              let q ← fdiv m R.1.2.1
              pure (potSign Side.left * q) : Res K)
            = (do
              let m ← R.1.2.2.1
              let q ← fdiv m R.1.2.1
              pure (potSign Side.right * q) : Res K) := by
          cases R.1.2.2.1 with
          | val m => exact pot_sgn m R.1.2.1
          | _ => rfl
        have hyy : -y * potSign .left = y * potSign .right := by simp [potSign]
        simp only [Res.pure_eq] at hmean
        simp only [Option.map_some, hyy, sub_sub_cancel, Res.pure_eq] at u1 u2
        rw [hmean] at u1
        exact ⟨_, _, _, _, u1, u2, q1 _ _ rfl, q1 _ _ rfl⟩
  · rw [if_neg hR] at u1 u2
    cases hasNaN with
    | true =>
      left
      simp only [potNaN, if_true, Res.val_bind, Res.pure_eq] at u1 u2
      refine ⟨_, _, _, s'.fit, u1, u2, ?_, ?_⟩
      · rw [q1 _ _ rfl, hf]
      · rw [q1 _ _ rfl]
    | false =>
      right
      rw [u1, u2]
      exact ⟨fun x hx => (by cases hx), rfl⟩

theorem wpotProb_same (pw : K → K → Res K) (H : HeapImpl ℕ) (hasNaN : Bool) {k : ℕ} (hk : 1 ≤ k) (tp : K)
    (ps : List (K × K)) :
    ∃ s s', (wpotProbSet pw H .left hasNaN k (1 - tp)).exec (wpotProbSet pw H .left hasNaN k (1 - tp)).init
        (onlyPushes (ps.map fun q => (-q.1, q.2))) = .val s ∧
      (wpotProbSet pw H .right hasNaN k tp).exec (wpotProbSet pw H .right hasNaN k tp).init (onlyPushes ps) = .val s' ∧
      SameFit (fun s => (wpotProbSet pw H .left hasNaN k (1 - tp)).query s ())
        (fun s => (wpotProbSet pw H .right hasNaN k tp).query s ()) s s' := by
  obtain ⟨t, slots, hr, hi⟩ := tailRun_inv H .right hk (0 : K) (0 : K) (onlyPushes ps)
  obtain ⟨out, h1, h2, -⟩ := hi.result H
  have hm := tailRun_map (side := .right) (side' := .left) (f := fun x : K => -x) tailPred_mirror
    (id : K → K) H k 0 0 (onlyPushes ps)
  have hmp : Spec.mapPairs (fun x : K => -x) id (onlyPushes (Q := Unit) ps) = onlyPushes (ps.map fun q => (-q.1, q.2)) := by
    simp [Spec.mapPairs, onlyPushes, Function.comp_def]
  rw [hmp, hr, Res.map_val, neg_zero, id_eq] at hm
  have g1 := tailResult_map (side := .right) (side' := .left) (f := fun x : K => -x) tailPred_mirror (id : K → K) H t
  have g2 := tailVariateResult_map (side := .right) (side' := .left) (f := fun x : K => -x) tailPred_mirror (id : K → K) H t
  rw [h1, Res.map_val] at g1
  rw [h2, Res.map_val, List.map_id] at g2
  refine ⟨_, _, wpotProb_exec_pushes pw H .left hasNaN k (1 - tp) _ (wpotProbSet pw H .left hasNaN k (1 - tp)).init hm,
    wpotProb_exec_pushes pw H .right hasNaN k tp _ (wpotProbSet pw H .right hasNaN k tp).init hr, ?_⟩
  refine wpotProbQuery_mirror pw H hasNaN ?_ h1 h2 g1 g2 rfl rfl rfl rfl rfl rfl ?_ ?_ rfl
  · simp only [wtotal_mirror]
    rfl
  · simp [wpotProbSet, wpotProbInit]
  · simp [wpotProbSet, wpotProbInit]

/-- **C55** The weighted fit for a threshold given as a probability, its quantiles and tail means; any weights,
whatever the heap implementation does with equal samples. -/
theorem C55_wpot_prob_mirror (pw : K → K → Res K) (H : HeapImpl ℕ) (hasNaN : Bool) {k : ℕ} (hk : 1 ≤ k) (tp : K)
    (ps : List (K × K)) (p : K) :
    (wpotProbSet pw H .left hasNaN k (1 - tp)).answer (onlyPushes (ps.map fun q => (-q.1, q.2))) ()
      = (wpotProbSet pw H .right hasNaN k tp).answer (onlyPushes ps) () ∧
    (potQuantileSet pw .left (wpotProbSet pw H .left hasNaN k (1 - tp))).answer
        (onlyPushes (ps.map fun q => (-q.1, q.2))) (1 - p)
      = (fun r => (fun v => -v) <$> r) <$> (potQuantileSet pw .right (wpotProbSet pw H .right hasNaN k tp)).answer (onlyPushes ps) p ∧
    (potTailMeanSet pw .left (wpotProbSet pw H .left hasNaN k (1 - tp))).answer
        (onlyPushes (ps.map fun q => (-q.1, q.2))) (1 - p)
      = (fun r => (fun v => -v) <$> r) <$> (potTailMeanSet pw .right (wpotProbSet pw H .right hasNaN k tp)).answer (onlyPushes ps) p := by
  obtain ⟨s, s', e, e', h⟩ := wpotProb_same pw H hasNaN hk tp ps
  exact ⟨SameFit.sets e e' h, SameFit.quantile_sets e e' h pw p⟩

/-! ## Concrete cases -/

/-- A heap of four samples; the two most extreme ones are beyond the threshold of either side. -/
example (pw : ℚ → ℚ → Res ℚ) (H : HeapImpl ℕ) :
    (potProbSet pw H .left true 3 () (1 / 2)).answer (onlyPushes [(-1, ()), (-5, ()), (-2, ()), (-9, ())]) ()
      = (potProbSet pw H .right true 3 () (1 / 2)).answer (onlyPushes [(1, ()), (5, ()), (2, ()), (9, ())]) () := by
  have := (C55_pot_prob_mirror pw H true (k := 3) (by norm_num) () (1 / 2) [(1, ()), (5, ()), (2, ()), (9, ())] 0).1
  norm_num at this
  exact this

/-- The weighted fit exists there: mean 6, second moment 38, so `ξ = (1 - (6 - 3)² / 2) / 2`. -/
example (pw : ℚ → ℚ → Res ℚ) :
    (fun r : PotFit ℚ => r.2.2) <$> (wpotSet pw .left (-3)).answer
        (onlyPushes ([(1, 1), (5, 3), (2, 1), (9, 1)].map fun q : ℚ × ℚ => (-q.1, q.2))) ()
      = .val (.val (-1)) := by
  rw [(C55_wpot_mirror pw 3 [(1, 1), (5, 3), (2, 1), (9, 1)] 0).1]
  norm_num [RMachine.answer, RMachine.exec, RMachine.exec1, onlyPushes, wpotSet, wpotInit, wpotPush,
      wpotQuery, potParams, potSign, fdiv]

end Acc
